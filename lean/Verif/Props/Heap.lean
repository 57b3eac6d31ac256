import Verif.Lemmas.Heap
import Verif.Lemmas.IteratedLoop
import Verif.Props.CrossCov

/-!
# C81: belief objects as shared pointers

The other models treat a belief pointer as its value. Here every history holds addresses of objects (Model/Heap.lean), and
the theorems say when the two views agree.
-/

namespace Ikf
open Mat
namespace PSt

/-! ## Specification -/

/-- Instance `p` stores the object `a` at time `k`. -/
def Points (s : PSt) (p : ℕ) (k : Int) (a : ℕ) : Prop := ∃ i, (p, i) ∈ s.inst ∧ (k, a) ∈ i.ptr

/-- IDs and times in order; no object is stored twice, in one history or in two; all stored objects exist. -/
structure NoShare (s : PSt) : Prop where
  sorted : s.inst.Sorted
  keys : ∀ p i, (p, i) ∈ s.inst → i.ptr.StrictKeys
  inj : ∀ p q k l a, s.Points p k a → s.Points q l a → p = q ∧ k = l
  lt : ∀ p k a, s.Points p k a → a < s.heap.next

/-- The caller holds an object that no filter stores. -/
def Free (s : PSt) (a : ℕ) : Prop := a < s.heap.next ∧ ∀ p k, ¬ s.Points p k a

end PSt

/-- A call on instance `id` with beliefs as values. -/
noncomputable def Hdl.onInst (h : Hdl) (id : ℕ) (f : Inst → Res (Inst × Bool)) : Res (Hdl × Bool) :=
  match h.find id with
  | some i => do
    let r ← f i
    .ok (h.set id r.1, r.2)
  | none => .ub

/-- The user's prediction works on its own instance: it shows what the value version shows and touches only objects of this
instance and new ones. -/
def Faithful (predP : ℕ → Heap → PInst → Int → Heap × PInst × Bool) (predV : ℕ → Inst → Int → Inst × Bool) : Prop :=
  ∀ id H i t, i.Sep H → predV id (i.view H) t = PInst.shown (predP id H i t) ∧
    PInst.Step none H i (predP id H i t).1 (predP id H i t).2.1

/-- Calls of the API; a belief argument is a new object. -/
inductive BOp where
  | init (id : ℕ) (b : Belief) (t : Int)
  | setBelief (id : ℕ) (b : Belief) (t : Int)
  | removeAfter (t : Int)
  | removeFrom (t : Int)
  | ev (e : Ev)

/-- The call with pointers: belief arguments are allocated by the caller and passed by pointer. -/
noncomputable def BOp.ptr (fp : FP) (near : Mat → Mat) (pred : ℕ → Heap → PInst → Int → Heap × PInst × Bool) (s : PSt) :
    BOp → Res (PSt × Bool)
  | .init id b t => (s.make b).1.onInst id (fun H i => .ok (H, i.doInit (s.make b).2 t, true))
  | .setBelief id b t => (s.make b).1.onInst id (fun H i => .ok (H, i.setPtr (s.make b).2 t, true))
  | .removeAfter t => .ok (s.removeBeliefsAfter t, true)
  | .removeFrom t => .ok (s.removeBeliefsFrom t, true)
  | .ev (.propKF id Phi Q ta tb) => s.onInst id (fun H i => i.propKF fp H Phi Q ta tb)
  | .ev (.propEKF id mb Phi Q ta tb) => s.onInst id (fun H i =>
      match i.ptr.getAt ta with
      | some e => i.propEKF fp H e.2 mb Phi Q ta tb
      | none => .ok (H, i, false))
  | .ev (.propBel id b Phi ta tb) => (s.make b).1.onInst id (fun H i => i.propBel fp H (s.make b).2 Phi ta tb)
  | .ev (.privKF id Hm R z t cfg) => s.onInst id (fun H i => i.privKF H Hm R z t cfg)
  | .ev (.privEKF id Hm R r t cfg) => s.onInst id (fun H i =>
      match i.ptr.getAt t with
      | some e => i.privEKF H e.2 Hm R r cfg
      | none => .ok (H, i, false))
  | .ev (.setCov a b S t) => do
    let s' ← s.setSigma a b S t
    .ok (s', true)
  | .ev (.jointR dH R r t cfg) => s.applyObsR near pred dH R r t cfg
  | .ev (.jointZ dH z R t cfg) => s.applyObsZ near pred dH z R t cfg

/-- The call with values; `Hdl.run` is what C21 to C24 and C57 are about. -/
noncomputable def BOp.val (fp : FP) (near : Mat → Mat) (pred : ℕ → Inst → Int → Inst × Bool) (h : Hdl) :
    BOp → Res (Hdl × Bool)
  | .init id b t => h.onInst id (fun i => .ok (i.doInit b t, true))
  | .setBelief id b t => h.onInst id (fun i => .ok (i.setBelief b t, true))
  | .removeAfter t => .ok (h.removeBeliefsAfter t, true)
  | .removeFrom t => .ok (h.removeBeliefsFrom t, true)
  | .ev e => Hdl.run fp near pred h e

/-- The maps of observation matrices are `std::map`s. -/
def BOp.Ok : BOp → Prop
  | .ev (.jointR dH _ _ _ _) => dH.Sorted
  | .ev (.jointZ dH _ _ _ _) => dH.Sorted
  | _ => True

/-- Calls one after the other, with their answers. -/
def runOps {S O : Type _} (step : S → O → Res (S × Bool)) : S → List O → Res (S × List Bool)
  | s, [] => .ok (s, [])
  | s, o :: r => do
    let x ← step s o
    let y ← runOps step x.1 r
    .ok (y.1, x.2 :: y.2)

/-! ## Auxiliary -/

namespace PSt
open Hdl (bind_eq_ok)

theorem NoShare.sep {s : PSt} (h : s.NoShare) {p : ℕ} {i : PInst} (hm : (p, i) ∈ s.inst) : i.Sep s.heap :=
  ⟨h.keys p i hm, fun k l a h1 h2 => (h.inj p p k l a ⟨i, hm, h1⟩ ⟨i, hm, h2⟩).2, fun k a h1 => h.lt p k a ⟨i, hm, h1⟩⟩

theorem view_find (s : PSt) (p : ℕ) : s.view.find p = (s.inst.find p).map (fun i => i.view s.heap) := SMap.find_mapV _ _ _

theorem view_sorted {s : PSt} (h : s.NoShare) : s.view.Sorted := h.sorted.mapV _

theorem points_set {s : PSt} (h : s.NoShare) {H' : Heap} {p q : ℕ} {i' : PInst} {k : Int} {a : ℕ}
    (hp : Points ⟨H', s.inst.set p i'⟩ q k a) : (q = p ∧ (k, a) ∈ i'.ptr) ∨ (q ≠ p ∧ s.Points q k a) := by
  obtain ⟨j, hj, hk⟩ := hp
  simp only at hj
  have hf := (SMap.find_eq_some (h.sorted.set p i') q j).mpr hj
  rw [SMap.find_set] at hf
  split at hf
  · rename_i hpq
    rw [← Option.some.inj hf] at hk
    exact Or.inl ⟨hpq.symm, hk⟩
  · rename_i hpq
    exact Or.inr ⟨fun e => hpq e.symm, j, SMap.mem_of_find hf, hk⟩

/-- A step of one instance keeps objects unshared. -/
theorem NoShare.step {s : PSt} (h : s.NoShare) {p : ℕ} {i i' : PInst} (hf : s.inst.find p = some i) {ext : Option ℕ} {H' : Heap}
    (hst : PInst.Step ext s.heap i H' i') (hext : ∀ a, ext = some a → s.Free a) : NoShare ⟨H', s.inst.set p i'⟩ := by
  have hm := SMap.mem_of_find hf
  have key : ∀ q k a, q ≠ p → s.Points q k a → ∀ l, (l, a) ∈ i'.ptr → False := by
    intro q k a hq hp l hl
    rcases hst.holds a ⟨l, hl⟩ with ⟨k', hk'⟩ | he | hn
    · exact hq (h.inj q p k k' a hp ⟨i, hm, hk'⟩).1
    · exact (hext a he).2 q k hp
    · have := h.lt q k a hp; omega
  refine ⟨h.sorted.set p i', fun q j hj => ?_, fun q r k l a h1 h2 => ?_, fun q k a h1 => ?_⟩
  · rcases SMap.mem_set _ _ _ _ hj with e | e
    · rw [(Prod.mk.inj e).2]; exact hst.sep.keys
    · exact h.keys q j e
  · rcases points_set h h1 with ⟨e1, m1⟩ | ⟨n1, m1⟩ <;> rcases points_set h h2 with ⟨e2, m2⟩ | ⟨n2, m2⟩
    · exact ⟨e1.trans e2.symm, hst.sep.inj k l a m1 m2⟩
    · exact absurd m1 (fun m1 => key r l a n2 m2 k m1)
    · exact absurd m2 (fun m2 => key q k a n1 m1 l m2)
    · exact h.inj q r k l a m1 m2
  · rcases points_set h h1 with ⟨e1, m1⟩ | ⟨n1, m1⟩
    · exact hst.sep.lt k a m1
    · exact lt_of_lt_of_le (h.lt q k a m1) hst.next

/-- A step of one instance leaves the objects of the others alone. -/
theorem step_frame {s : PSt} (h : s.NoShare) {p : ℕ} {i i' : PInst} (hf : s.inst.find p = some i) {ext : Option ℕ} {H' : Heap}
    (hst : PInst.Step ext s.heap i H' i') (hext : ∀ a, ext = some a → s.Free a) {q : ℕ} (hq : q ≠ p) {k : Int} {a : ℕ}
    (hp : s.Points q k a) : H'.val a = s.heap.val a := by
  apply hst.frame a (h.lt q k a hp)
  · rintro ⟨l, hl⟩
    exact hq (h.inj q p k l a hp ⟨i, SMap.mem_of_find hf, hl⟩).1
  · intro he
    exact (hext a he).2 q k hp

/-- A step of one instance shows on this instance only. -/
theorem view_step {s : PSt} (h : s.NoShare) {p : ℕ} {i i' : PInst} (hf : s.inst.find p = some i) {ext : Option ℕ} {H' : Heap}
    (hst : PInst.Step ext s.heap i H' i') (hext : ∀ a, ext = some a → s.Free a) :
    view ⟨H', s.inst.set p i'⟩ = s.view.set p (i'.view H') := by
  have hn := h.step hf hst hext
  apply Hdl.sorted_ext (view_sorted hn) ((view_sorted h).set _ _)
  intro q
  rw [view_find, SMap.find_set, SMap.find_set]
  split
  · rfl
  · rename_i hpq
    rw [view_find]
    cases hq : s.inst.find q with
    | none => rfl
    | some j =>
      simp only [Option.map_some]
      congr 1
      exact PInst.view_congr (fun k a hk => step_frame h hf hst hext (fun e => hpq e.symm) ⟨j, SMap.mem_of_find hq, hk⟩)

/-- A new object changes nothing. -/
theorem make_spec {s : PSt} (h : s.NoShare) (b : Belief) :
    (s.make b).1.NoShare ∧ (s.make b).1.view = s.view ∧ (s.make b).1.Free (s.make b).2 ∧ (s.make b).1.heap.val (s.make b).2 = b ∧
    (s.make b).1.inst = s.inst := by
  have hP : ∀ p k a, (s.make b).1.Points p k a ↔ s.Points p k a := fun p k a => Iff.rfl
  refine ⟨⟨h.sorted, h.keys, h.inj, fun p k a hp => lt_of_lt_of_le (h.lt p k a hp) (Nat.le_succ _)⟩, ?_, ⟨Nat.lt_succ_self _, ?_⟩,
    PInst.alloc_self _ _, rfl⟩
  · unfold view make SMap.mapV
    apply List.map_congr_left
    intro e he
    show (e.1, PInst.view (s.heap.alloc b).1 e.2) = (e.1, PInst.view s.heap e.2)
    rw [PInst.alloc_view (h.sep (p := e.1) he)]
  · intro p k hp
    have := h.lt p k _ hp
    simp [make, Heap.alloc] at this

/-- Calls on one instance. -/
theorem onInst_sim {s : PSt} (h : s.NoShare) (id : ℕ) {f : Heap → PInst → Res (Heap × PInst × Bool)} {g : Inst → Res (Inst × Bool)}
    (ext : Option ℕ) (hext : ∀ a, ext = some a → s.Free a)
    (hf : ∀ i, (id, i) ∈ s.inst → g (i.view s.heap) = (f s.heap i).mapv PInst.shown ∧
      ∀ r, f s.heap i = .ok r → PInst.Step ext s.heap i r.1 r.2.1) :
    s.view.onInst id g = (s.onInst id f).mapv (fun x => (x.1.view, x.2)) ∧ ∀ x, s.onInst id f = .ok x → x.1.NoShare := by
  unfold Hdl.onInst onInst
  rw [view_find]
  cases hi : s.inst.find id with
  | none => exact ⟨rfl, fun x hx => by simp at hx⟩
  | some i =>
    obtain ⟨h1, h2⟩ := hf i (SMap.mem_of_find hi)
    simp only [Option.map_some]
    rw [h1]
    cases hr : f s.heap i with
    | throws => exact ⟨rfl, fun x hx => by simp at hx⟩
    | ub => exact ⟨rfl, fun x hx => by simp at hx⟩
    | ok r =>
      have hst := h2 r hr
      constructor
      · show Res.ok (s.view.set id (r.2.1.view r.1), r.2.2) = Res.ok (view ⟨r.1, s.inst.set id r.2.1⟩, r.2.2)
        rw [view_step h hi hst hext]
      · intro x hx
        rw [Res.bind_ok] at hx
        rw [← Res.ok.inj hx]
        exact h.step hi hst hext

/-- Dropping entries. -/
theorem NoShare.sub {s : PSt} (h : s.NoShare) (f : PInst → PInst) (hf : ∀ i, (f i).ptr.Sublist i.ptr) :
    NoShare { s with inst := s.inst.mapV f } := by
  have hP : ∀ p k a, Points { s with inst := s.inst.mapV f } p k a → s.Points p k a := by
    rintro p k a ⟨j, hj, hk⟩
    simp only [SMap.mapV, List.mem_map] at hj
    obtain ⟨e, he, hj⟩ := hj
    obtain ⟨rfl, rfl⟩ := Prod.mk.inj hj
    exact ⟨e.2, he, (hf e.2).subset hk⟩
  refine ⟨h.sorted.mapV f, fun p j hj => ?_, fun p q k l a h1 h2 => h.inj p q k l a (hP _ _ _ h1) (hP _ _ _ h2),
    fun p k a h1 => h.lt p k a (hP _ _ _ h1)⟩
  simp only [SMap.mapV, List.mem_map] at hj
  obtain ⟨e, he, hj⟩ := hj
  obtain ⟨rfl, rfl⟩ := Prod.mk.inj hj
  exact (h.keys e.1 e.2 he).sublist (hf e.2)

theorem view_mapV (s : PSt) (f : PInst → PInst) (g : Inst → Inst) (hfg : ∀ i, (f i).view s.heap = g (i.view s.heap)) :
    view { s with inst := s.inst.mapV f } = s.view.mapV g := by
  unfold view SMap.mapV
  rw [List.map_map, List.map_map]
  apply List.map_congr_left
  intro e _
  simp only [Function.comp, hfg]

theorem removeBeliefsAfter_sim {s : PSt} (h : s.NoShare) (t : Int) :
    (s.removeBeliefsAfter t).view = s.view.removeBeliefsAfter t ∧ (s.removeBeliefsAfter t).NoShare := by
  constructor
  · apply view_mapV
    intro i
    show _ = if (Buf.mv s.heap.val i.ptr).existAt t || (Buf.mv s.heap.val i.ptr).existBefore t then _ else _
    rw [Buf.existAt_mv, Buf.existBefore_mv]
    split
    · show (PInst.removeAfter i t).view s.heap = Inst.mk ((Buf.mv s.heap.val i.ptr).removeAfter t) _ _
      rw [Buf.removeAfter_mv]; rfl
    · rfl
  · apply h.sub
    intro i
    split
    · exact Buf.removeAfter_sublist _ _
    · exact List.Sublist.refl _

theorem removeBeliefsFrom_sim {s : PSt} (h : s.NoShare) (t : Int) :
    (s.removeBeliefsFrom t).view = s.view.removeBeliefsFrom t ∧ (s.removeBeliefsFrom t).NoShare := by
  constructor
  · apply view_mapV
    intro i
    show _ = if (Buf.mv s.heap.val i.ptr).existBefore t then _ else _
    rw [Buf.existBefore_mv]
    split
    · show (PInst.removeFrom i t).view s.heap = Inst.mk (((Buf.mv s.heap.val i.ptr).removeAfter t).removeAt t) _ _
      rw [Buf.removeAfter_mv, Buf.removeAt_mv]; rfl
    · rfl
  · apply h.sub
    intro i
    split
    · exact (List.filter_sublist).trans (Buf.removeAfter_sublist _ _)
    · exact List.Sublist.refl _

/-! ### Joint observations -/

theorem set_mapV {V W : Type _} (f : V → W) (m : SMap V) (k : ℕ) (v : V) : (m.set k v).mapV f = (m.mapV f).set k (f v) := by
  induction m with
  | nil => rfl
  | cons e r ih =>
    show SMap.mapV f (SMap.set (e :: r) k v) = SMap.set ((e.1, f e.2) :: SMap.mapV f r) k (f v)
    rw [SMap.set, SMap.set]
    simp only
    split
    · rfl
    · split
      · rfl
      · rw [← ih]; rfl

theorem emplace_mapV {V W : Type _} (f : V → W) (m : SMap V) (k : ℕ) (v : V) : (m.emplace k v).mapV f = (m.mapV f).emplace k (f v) := by
  unfold SMap.emplace
  rw [SMap.find_mapV]
  cases m.find k with
  | none => exact set_mapV f m k v
  | some _ => rfl

/-- The pointers of a map are those stored at `t`. -/
def PtrAt (s : PSt) (t : Int) (d : SMap ℕ) : Prop := ∀ e ∈ d, s.Points e.1 t e.2

theorem ptrAt_emplace {s : PSt} {t : Int} {d : SMap ℕ} (h : s.PtrAt t d) {p a : ℕ} (hp : s.Points p t a) : s.PtrAt t (d.emplace p a) := by
  intro e he
  unfold SMap.emplace at he
  split at he
  · exact h e he
  · rcases SMap.mem_set _ _ _ _ he with rfl | he
    · exact hp
    · exact h e he

theorem beliefPredict_exist {predV : ℕ → Inst → Int → Inst × Bool} {s : PSt} {id : ℕ} {i : PInst} (hi : s.inst.find id = some i) (t : Int) :
    Hdl.beliefPredict predV s.view id t = if i.ptr.existAt t then .ok (s.view, (i.ptr.getAt t).map (fun e => s.heap.val e.2))
      else .ok (s.view.set id (predV id (i.view s.heap) t).1,
        if (predV id (i.view s.heap) t).2 then (predV id (i.view s.heap) t).1.beliefAt t else none) := by
  unfold Hdl.beliefPredict Hdl.get
  rw [view_find, hi]
  simp only [Option.map_some, Res.bind_ok]
  rw [PInst.view_bel, Buf.existAt_mv, PInst.beliefAt_view]

theorem getDict_sim {predP : ℕ → Heap → PInst → Int → Heap × PInst × Bool} {predV : ℕ → Inst → Int → Inst × Bool}
    (hF : Faithful predP predV) (t : Int) (ids : List ℕ) : ∀ (s : PSt) (acc : SMap ℕ), s.NoShare → ids.Nodup → (∀ e ∈ acc, e.1 ∉ ids) →
      s.PtrAt t acc → acc.Sorted →
      Hdl.getDictBel predV s.view ids t (acc.mapV s.heap.val) =
        (s.getDictPtr predP ids t acc).mapv (fun x => (x.1.view, x.2.mapV x.1.heap.val)) ∧
      ∀ x, s.getDictPtr predP ids t acc = .ok x → x.1.NoShare ∧ x.1.PtrAt t x.2 ∧ x.2.Sorted := by
  induction ids with
  | nil =>
    intro s acc hs _ _ hp ha
    exact ⟨rfl, fun x hx => by rw [← Res.ok.inj hx]; exact ⟨hs, hp, ha⟩⟩
  | cons id r ih =>
    intro s acc hs hnd hacc hp ha
    have hnd' := List.nodup_cons.mp hnd
    rw [Hdl.getDictBel, getDictPtr]
    cases hi : s.inst.find id with
    | none =>
      have : Hdl.beliefPredict predV s.view id t = .ub := by
        unfold Hdl.beliefPredict Hdl.get; rw [view_find, hi]; rfl
      rw [this]
      exact ⟨rfl, fun x hx => by simp at hx⟩
    | some i =>
      rw [beliefPredict_exist hi]
      have hfresh : ∀ a, ∀ e ∈ acc.emplace id a, e.1 ∉ r := by
        intro a e he
        unfold SMap.emplace at he
        split at he
        · exact fun hr => hacc e he (List.mem_cons_of_mem _ hr)
        · rcases SMap.mem_set _ _ _ _ he with rfl | he
          · exact hnd'.1
          · exact fun hr => hacc e he (List.mem_cons_of_mem _ hr)
      have hnil : ∀ s : PSt, s.PtrAt t [] := fun s e he => by cases he
      by_cases he : i.ptr.existAt t = true
      · simp only [he, if_true, Res.bind_ok]
        cases hg : i.ptr.getAt t with
        | none => exact ⟨rfl, fun x hx => by rw [← Res.ok.inj hx]; exact ⟨hs, hnil _, List.Pairwise.nil⟩⟩
        | some e =>
          simp only [Option.map_some]
          rw [← emplace_mapV]
          exact ih s (acc.emplace id e.2) hs hnd'.2 (hfresh _)
            (ptrAt_emplace hp ⟨i, SMap.mem_of_find hi, PInst.mem_of_getAt hg⟩) (ha.emplace _ _)
      · simp only [he, Res.bind_ok]
        obtain ⟨hv, hst⟩ := hF id s.heap i t (hs.sep (SMap.mem_of_find hi))
        have hext : ∀ a, (none : Option ℕ) = some a → s.Free a := fun a ha => by simp at ha
        have hs1 := hs.step hi hst hext
        have hv1 := view_step hs hi hst hext
        have hb : (predP id s.heap i t).2.2 = (predV id (i.view s.heap) t).2 := by rw [hv]; rfl
        have hw : (predV id (i.view s.heap) t).1 = (predP id s.heap i t).2.1.view (predP id s.heap i t).1 := by rw [hv]; rfl
        have hp1 : PtrAt ⟨(predP id s.heap i t).1, s.inst.set id (predP id s.heap i t).2.1⟩ t acc := by
          intro e hea
          obtain ⟨j, hj, hk⟩ := hp e hea
          have hne : e.1 ≠ id := fun e1 => hacc e hea (e1 ▸ List.mem_cons_self)
          refine ⟨j, SMap.mem_of_find ?_, hk⟩
          simp only
          rw [SMap.find_set_ne _ (fun h => hne h.symm)]
          exact (SMap.find_eq_some hs.sorted _ _).mpr hj
        have hval : acc.mapV (predP id s.heap i t).1.val = acc.mapV s.heap.val := by
          unfold SMap.mapV
          apply List.map_congr_left
          intro e hea
          have hne : e.1 ≠ id := fun e1 => hacc e hea (e1 ▸ List.mem_cons_self)
          rw [step_frame hs hi hst hext hne (hp e hea)]
        rw [hw, ← hv1, ← hb]
        by_cases hr : (predP id s.heap i t).2.2 = true
        · simp only [hr, if_true]
          rw [PInst.beliefAt_view]
          cases hg : (predP id s.heap i t).2.1.ptr.getAt t with
          | none => exact ⟨rfl, fun x hx => by rw [← Res.ok.inj hx]; exact ⟨hs1, hnil _, List.Pairwise.nil⟩⟩
          | some e =>
            simp only [Option.map_some]
            have hm : Points ⟨(predP id s.heap i t).1, s.inst.set id (predP id s.heap i t).2.1⟩ id t e.2 :=
              ⟨_, SMap.mem_of_find (by simp only; rw [SMap.find_set, if_pos rfl]), PInst.mem_of_getAt hg⟩
            have := ih _ (acc.emplace id e.2) hs1 hnd'.2 (hfresh _) (ptrAt_emplace hp1 hm) (ha.emplace _ _)
            rw [emplace_mapV] at this
            simp only [hval] at this
            exact this
        · simp only [hr]
          exact ⟨rfl, fun x hx => by rw [← Res.ok.inj hx]; exact ⟨hs1, hnil _, List.Pairwise.nil⟩⟩

/-- The caller's or the handler's change of a stored object shows as a changed belief at its place. -/
theorem view_put {s : PSt} (h : s.NoShare) {p : ℕ} {i : PInst} (hi : s.inst.find p = some i) {t : Int} {a : ℕ} (hm : (t, a) ∈ i.ptr)
    (b : Belief) : (s.write a b).view = s.view.set p ((i.view s.heap).setBelief b t) ∧ (s.write a b).NoShare := by
  have hsep := h.sep (SMap.mem_of_find hi)
  have hst := PInst.Step.put hsep ⟨t, hm⟩ b
  have hext : ∀ a, (none : Option ℕ) = some a → s.Free a := fun a ha => by simp at ha
  have hset : s.inst.set p i = s.inst := by
    apply Hdl.sorted_ext (h.sorted.set _ _) h.sorted
    intro k
    rw [SMap.find_set]
    split
    · rename_i e; rw [← e, hi]
    · rfl
  have h1 := view_step h hi hst hext
  have h2 := h.step hi hst hext
  rw [hset] at h1 h2
  rw [PInst.put_view hsep hm] at h1
  exact ⟨h1, h2⟩

theorem correct_sim {P dx : Mat} {t : Int} (d : SMap ℕ) : ∀ (s : PSt) (row : ℕ), s.NoShare → s.PtrAt t d → d.Sorted →
    Hdl.correctBeliefs P dx t (d.mapV s.heap.val) row s.view =
      (correctPtrs P dx d row s.heap).mapv (fun H => view { s with heap := H }) ∧
    ∀ H, correctPtrs P dx d row s.heap = .ok H → NoShare { s with heap := H } := by
  induction d with
  | nil =>
    intro s row hs _ _
    exact ⟨rfl, fun H hH => by rw [← Res.ok.inj hH]; exact hs⟩
  | cons e r ih =>
    intro s row hs hp hd
    have hd' := List.pairwise_cons.mp hd
    obtain ⟨i, hi, hk⟩ := hp e List.mem_cons_self
    have hf := (SMap.find_eq_some hs.sorted _ _).mpr hi
    have hpr : s.PtrAt t r := fun x hx => hp x (List.mem_cons_of_mem _ hx)
    show Hdl.correctBeliefs P dx t ((e.1, s.heap.val e.2) :: SMap.mapV s.heap.val r) row s.view = _ ∧ _
    rw [Hdl.correctBeliefs, correctPtrs]
    simp only
    by_cases hx : (!(s.heap.val e.2).fixed) = true
    · rw [if_pos hx, if_pos hx]
      have hstep : ∀ b, Hdl.correctBeliefs P dx t (SMap.mapV s.heap.val r) (row + (s.heap.val e.2).dim) (s.view.set e.1 ((i.view s.heap).setBelief b t)) =
          (correctPtrs P dx r (row + (s.heap.val e.2).dim) (s.heap.put e.2 b)).mapv (fun H => view { s with heap := H }) ∧
          ∀ H, correctPtrs P dx r (row + (s.heap.val e.2).dim) (s.heap.put e.2 b) = .ok H → NoShare { s with heap := H } := by
        intro b
        obtain ⟨hv, hn⟩ := view_put hs hf hk b
        have := ih (s.write e.2 b) (row + (s.heap.val e.2).dim) hn (fun x hx => hpr x hx) hd'.2
        rw [hv] at this
        have hval : SMap.mapV (s.write e.2 b).heap.val r = SMap.mapV s.heap.val r := by
          unfold SMap.mapV
          apply List.map_congr_left
          intro x hx
          have hne : x.2 ≠ e.2 := by
            intro he
            have h1 := (hs.inj _ _ _ _ _ (hpr x hx) (he ▸ hp e List.mem_cons_self)).1
            have h2 := hd'.1 x hx
            omega
          simp [write, Heap.put, hne]
        rw [hval] at this
        exact this
      constructor
      · rw [Res.mapv_bind]
        congr 1; funext B
        rw [Res.mapv_bind]
        congr 1; funext x
        rw [Res.mapv_bind]
        congr 1; funext b
        have hg : Hdl.get s.view e.1 = .ok (i.view s.heap) := by
          unfold Hdl.get; rw [view_find, hf]; rfl
        rw [hg, Res.bind_ok]
        exact (hstep b).1
      · intro H hH
        obtain ⟨B, _, hH⟩ := bind_eq_ok hH
        obtain ⟨x, _, hH⟩ := bind_eq_ok hH
        obtain ⟨b, _, hH⟩ := bind_eq_ok hH
        exact (hstep b).2 H hH
    · rw [if_neg hx, if_neg hx]
      exact ih s row hs hpr hd'.2

theorem withFactors_find (s : PSt) (h : Hdl) (p : ℕ) : (s.withFactors h).inst.find p = (s.inst.find p).map (fun i => match h.find p with
      | some j => { i with ccf := j.ccf, hor := j.hor }
      | none => i) := by
  unfold withFactors
  simp only
  induction s.inst with
  | nil => rfl
  | cons e r ih =>
    simp only [List.map_cons, SMap.find_cons]
    by_cases hp : e.1 = p
    · rw [if_pos hp, if_pos hp, hp]; rfl
    · rw [if_neg hp, if_neg hp]; exact ih

theorem withFactors_points {s : PSt} {h : Hdl} {p : ℕ} {k : Int} {a : ℕ} : (s.withFactors h).Points p k a ↔ s.Points p k a := by
  unfold Points withFactors
  simp only [List.mem_map]
  constructor
  · rintro ⟨i, ⟨e, he, h1⟩, hk⟩
    obtain ⟨rfl, rfl⟩ := Prod.mk.inj h1
    refine ⟨e.2, he, ?_⟩
    split at hk <;> exact hk
  · rintro ⟨i, hi, hk⟩
    refine ⟨_, ⟨(p, i), hi, rfl⟩, ?_⟩
    simp only
    split <;> exact hk

theorem withFactors_spec {s : PSt} (hs : s.NoShare) {h : Hdl} (hh : h.Sorted) (hb : ∀ q, Hdl.bels h q = Hdl.bels s.view q) :
    (s.withFactors h).view = h ∧ (s.withFactors h).NoShare := by
  have hn : (s.withFactors h).NoShare := by
    refine ⟨?_, fun p i hi => ?_, fun p q k l a h1 h2 => hs.inj p q k l a (withFactors_points.mp h1) (withFactors_points.mp h2),
      fun p k a h1 => hs.lt p k a (withFactors_points.mp h1)⟩
    · rw [SMap.sorted_iff_keys]
      have : (s.withFactors h).inst.keys = s.inst.keys := by
        unfold SMap.keys withFactors
        simp only [List.map_map]
        rfl
      rw [this]
      exact (SMap.sorted_iff_keys _).mp hs.sorted
    · unfold withFactors at hi
      simp only [List.mem_map] at hi
      obtain ⟨e, he, h1⟩ := hi
      obtain ⟨rfl, rfl⟩ := Prod.mk.inj h1
      have := hs.keys e.1 e.2 he
      split <;> exact this
  refine ⟨?_, hn⟩
  apply Hdl.sorted_ext (view_sorted hn) hh
  intro q
  rw [view_find, withFactors_find]
  have hq := hb q
  unfold Hdl.bels at hq
  rw [view_find] at hq
  cases hi : s.inst.find q with
  | none =>
    rw [hi] at hq
    cases hj : SMap.find h q with
    | none => rfl
    | some j => rw [hj] at hq; simp at hq
  | some i =>
    rw [hi] at hq
    cases hj : SMap.find h q with
    | none => rw [hj] at hq; simp at hq
    | some j =>
      rw [hj] at hq
      simp only [Option.map_some, Option.some.injEq] at hq ⊢
      show Inst.mk (Buf.mv s.heap.val i.ptr) j.ccf j.hor = j
      have : Buf.mv s.heap.val i.ptr = j.bel := hq.symm
      rw [this]

theorem commit_sim {P dx : Mat} {t : Int} {d : SMap ℕ} {s : PSt} (hs : s.NoShare) (hp : s.PtrAt t d) (hd : d.Sorted) :
    Hdl.commit s.view (d.mapV s.heap.val) P dx t = (s.commit d P dx t).mapv view ∧ ∀ x, s.commit d P dx t = .ok x → x.NoShare := by
  unfold Hdl.commit commit
  cases h1 : Hdl.applyCorrections P t (d.mapV s.heap.val) 0 s.view with
  | throws => exact ⟨rfl, fun x hx => by simp at hx⟩
  | ub => exact ⟨rfl, fun x hx => by simp at hx⟩
  | ok a1 =>
    simp only [Res.bind_ok]
    cases h2 : Hdl.splitRightUpper P (d.mapV s.heap.val) t a1 with
    | throws => exact ⟨rfl, fun x hx => by simp at hx⟩
    | ub => exact ⟨rfl, fun x hx => by simp at hx⟩
    | ok a2 =>
      simp only [Res.bind_ok]
      have hso := Hdl.splitRightUpper_sorted (Hdl.applyCorrections_sorted (view_sorted hs) h1) h2
      obtain ⟨hv, hn⟩ := withFactors_spec hs hso (fun q => by rw [Hdl.splitRightUpper_bels h2, Hdl.applyCorrections_bels _ h1])
      obtain ⟨c1, c2⟩ := correct_sim (P := P) (dx := dx) d (s.withFactors a2) 0 hn (fun e he => withFactors_points.mpr (hp e he)) hd
      constructor
      · rw [hv] at c1
        show Hdl.correctBeliefs P dx t (d.mapV (s.withFactors a2).heap.val) 0 a2 = _
        rw [c1, Res.mapv_bind]
        show _ = (correctPtrs P dx d 0 (s.withFactors a2).heap >>= _)
        cases correctPtrs P dx d 0 (s.withFactors a2).heap <;> rfl
      · intro x hx
        obtain ⟨H, hH, hx⟩ := bind_eq_ok hx
        rw [← Res.ok.inj hx]
        exact c2 H hH

theorem correctJoint_sim (near : Mat → Mat) {t : Int} {d : SMap ℕ} {s : PSt} (hs : s.NoShare) (hp : s.PtrAt t d) (hd : d.Sorted) (H R r S : Mat) (cfg : Cfg) :
    Hdl.correctJoint near s.view (d.mapV s.heap.val) H R r S t cfg = (s.correctJoint near d H R r S t cfg).mapv (fun x => (x.1.view, x.2)) ∧
    ∀ x, s.correctJoint near d H R r S t cfg = .ok x → x.1.NoShare := by
  unfold Hdl.correctJoint correctJoint
  cases correctionStep H R r S cfg with
  | throws => exact ⟨rfl, fun x hx => by simp at hx⟩
  | ub => exact ⟨rfl, fun x hx => by simp at hx⟩
  | ok res =>
    simp only [Res.bind_ok]
    obtain ⟨c1, c2⟩ := commit_sim (P := Hdl.fixPsd near res.Sapos) (dx := res.dx) hs hp hd
    by_cases hr : (!res.rejected) = true
    · rw [if_pos hr, if_pos hr]
      constructor
      · rw [c1, Res.bind_mapv, Res.mapv_bind]; rfl
      · intro x hx
        obtain ⟨s1, h1, hx⟩ := bind_eq_ok hx
        rw [← Res.ok.inj hx]; exact c2 s1 h1
    · rw [if_neg hr, if_neg hr]
      exact ⟨rfl, fun x hx => by rw [← Res.ok.inj hx]; exact hs⟩

theorem mapV_isEmpty {V W : Type _} (f : V → W) (m : SMap V) : (m.mapV f).isEmpty = m.isEmpty := by cases m <;> rfl

theorem sorted_nodup {V : Type _} {m : SMap V} (h : m.Sorted) : m.keys.Nodup :=
  ((SMap.sorted_iff_keys m).mp h).imp (fun h => Nat.ne_of_lt h)

section
variable {predP : ℕ → Heap → PInst → Int → Heap × PInst × Bool} {predV : ℕ → Inst → Int → Inst × Bool} (hF : Faithful predP predV)
include hF

theorem applyObsZ_sim (near : Mat → Mat) {s : PSt} (hs : s.NoShare) {dH : SMap Mat} (hd : dH.Sorted) (z R : Mat) (t : Int) (cfg : Cfg) :
    s.view.applyObsZ near predV dH z R t cfg = (s.applyObsZ near predP dH z R t cfg).mapv (fun x => (x.1.view, x.2)) ∧
    ∀ x, s.applyObsZ near predP dH z R t cfg = .ok x → x.1.NoShare := by
  unfold Hdl.applyObsZ applyObsZ
  cases Hdl.stackH dH with
  | throws => exact ⟨rfl, fun x hx => by simp at hx⟩
  | ub => exact ⟨rfl, fun x hx => by simp at hx⟩
  | ok H =>
    simp only [Res.bind_ok]
    obtain ⟨g1, g2⟩ := getDict_sim hF t dH.keys s [] hs (sorted_nodup hd) (fun e he => by cases he) (fun e he => by cases he) List.Pairwise.nil
    have g1' : Hdl.getDictBel predV s.view dH.keys t [] = (s.getDictPtr predP dH.keys t []).mapv (fun x => (x.1.view, x.2.mapV x.1.heap.val)) := g1
    rw [g1']
    cases hx : s.getDictPtr predP dH.keys t [] with
    | throws => exact ⟨rfl, fun x hx => by simp at hx⟩
    | ub => exact ⟨rfl, fun x hx => by simp at hx⟩
    | ok x =>
      obtain ⟨n1, n2, n3⟩ := g2 x hx
      simp only [Res.mapv, Res.bind_ok]
      rw [mapV_isEmpty]
      by_cases hem : x.2.isEmpty = true
      · rw [if_pos hem, if_pos hem]
        exact ⟨rfl, fun y hy => by rw [← Res.ok.inj hy]; exact n1⟩
      · rw [if_neg hem, if_neg hem]
        constructor
        · show _ = Res.mapv _ _
          rw [Res.mapv_bind]
          congr 1; funext mean
          rw [Res.mapv_bind]
          congr 1; funext S0
          rw [Res.mapv_bind]
          congr 1; funext Hm
          rw [Res.mapv_bind]
          congr 1; funext r
          rw [Res.mapv_bind]
          congr 1; funext S
          exact (correctJoint_sim near n1 n2 n3 H R r S cfg).1
        · intro y hy
          obtain ⟨_, _, hy⟩ := bind_eq_ok hy
          obtain ⟨_, _, hy⟩ := bind_eq_ok hy
          obtain ⟨_, _, hy⟩ := bind_eq_ok hy
          obtain ⟨r, _, hy⟩ := bind_eq_ok hy
          obtain ⟨S, _, hy⟩ := bind_eq_ok hy
          exact (correctJoint_sim near n1 n2 n3 H R r S cfg).2 y hy

theorem applyObsR_sim (near : Mat → Mat) {s : PSt} (hs : s.NoShare) {dH : SMap Mat} (hd : dH.Sorted) (R r : Mat) (t : Int) (cfg : Cfg) :
    s.view.applyObsR near predV dH R r t cfg = (s.applyObsR near predP dH R r t cfg).mapv (fun x => (x.1.view, x.2)) ∧
    ∀ x, s.applyObsR near predP dH R r t cfg = .ok x → x.1.NoShare := by
  unfold Hdl.applyObsR applyObsR
  cases Hdl.stackH dH with
  | throws => exact ⟨rfl, fun x hx => by simp at hx⟩
  | ub => exact ⟨rfl, fun x hx => by simp at hx⟩
  | ok H =>
    simp only [Res.bind_ok]
    obtain ⟨g1, g2⟩ := getDict_sim hF t dH.keys s [] hs (sorted_nodup hd) (fun e he => by cases he) (fun e he => by cases he) List.Pairwise.nil
    have g1' : Hdl.getDictBel predV s.view dH.keys t [] = (s.getDictPtr predP dH.keys t []).mapv (fun x => (x.1.view, x.2.mapV x.1.heap.val)) := g1
    rw [g1']
    cases hx : s.getDictPtr predP dH.keys t [] with
    | throws => exact ⟨rfl, fun x hx => by simp at hx⟩
    | ub => exact ⟨rfl, fun x hx => by simp at hx⟩
    | ok x =>
      obtain ⟨n1, n2, n3⟩ := g2 x hx
      simp only [Res.mapv, Res.bind_ok]
      rw [mapV_isEmpty]
      by_cases hem : x.2.isEmpty = true
      · rw [if_pos hem, if_pos hem]
        exact ⟨rfl, fun y hy => by rw [← Res.ok.inj hy]; exact n1⟩
      · rw [if_neg hem, if_neg hem]
        constructor
        · show _ = Res.mapv _ _
          rw [Res.mapv_bind]
          congr 1; funext S0
          rw [Res.mapv_bind]
          congr 1; funext S
          exact (correctJoint_sim near n1 n2 n3 H R r S cfg).1
        · intro y hy
          obtain ⟨_, _, hy⟩ := bind_eq_ok hy
          obtain ⟨S, _, hy⟩ := bind_eq_ok hy
          exact (correctJoint_sim near n1 n2 n3 H R r S cfg).2 y hy

end

/-! ## C81 -/

/-- **C81** (one call). `initialize`, `set_belief_at_t` and `apply_propagation(bel_b, …)` store the caller's object itself. If
no filter stores it already, the call shows exactly the effect of the call with the value, on this filter only, and no
object is shared afterwards. -/
theorem c81_store {s : PSt} (h : s.NoShare) (fp : FP) (id a : ℕ) (ha : s.Free a) (t ta : Int) (Phi : Mat) :
    (s.view.onInst id (fun i => .ok (i.doInit (s.heap.val a) t, true)) =
        (s.onInst id (fun H i => .ok (H, i.doInit a t, true))).mapv (fun x => (x.1.view, x.2)) ∧
      ∀ x, s.onInst id (fun H i => .ok (H, i.doInit a t, true)) = .ok x → x.1.NoShare) ∧
    (s.view.onInst id (fun i => .ok (i.setBelief (s.heap.val a) t, true)) =
        (s.onInst id (fun H i => .ok (H, i.setPtr a t, true))).mapv (fun x => (x.1.view, x.2)) ∧
      ∀ x, s.onInst id (fun H i => .ok (H, i.setPtr a t, true)) = .ok x → x.1.NoShare) ∧
    (s.view.onInst id (fun i => i.propBel fp (s.heap.val a) Phi ta t) =
        (s.onInst id (fun H i => i.propBel fp H a Phi ta t)).mapv (fun x => (x.1.view, x.2)) ∧
      ∀ x, s.onInst id (fun H i => i.propBel fp H a Phi ta t) = .ok x → x.1.NoShare) := by
  have hext : ∀ x, some a = some x → s.Free x := fun x hx => by rw [← Option.some.inj hx]; exact ha
  have hnh : ∀ i, (id, i) ∈ s.inst → ¬ i.Holds a := fun i hi ⟨k, hk⟩ => ha.2 id k ⟨i, hi, hk⟩
  refine ⟨onInst_sim h id (some a) hext (fun i hi => ⟨rfl, fun r hr => ?_⟩), onInst_sim h id (some a) hext (fun i hi => ⟨?_, fun r hr => ?_⟩),
    onInst_sim h id (some a) hext (fun i hi => PInst.propBel_view fp (h.sep hi) ha.1 (hnh i hi) Phi ta t)⟩
  · rw [← Res.ok.inj hr]; exact PInst.Step.doInit ha.1 t
  · show Res.ok ((i.view s.heap).setBelief (s.heap.val a) t, true) = Res.ok ((i.setPtr a t).view s.heap, true)
    rw [PInst.setPtr_view]
  · rw [← Res.ok.inj hr]; exact PInst.Step.setPtr (h.sep hi) ha.1 (hnh i hi) t

/-- **C81** (the caller's pointer). A change of an object that no filter stores is not seen by any filter; a change of a
stored object is seen as a changed belief at the one place where it is stored. -/
theorem c81_write {s : PSt} (h : s.NoShare) (a : ℕ) (b : Belief) :
    ((∀ p k, ¬ s.Points p k a) → (s.write a b).view = s.view) ∧
    (∀ p i t, s.inst.find p = some i → (t, a) ∈ i.ptr → (s.write a b).view = s.view.set p ((i.view s.heap).setBelief b t)) ∧
    (s.write a b).NoShare := by
  refine ⟨fun hn => ?_, fun p i t hi hm => (view_put h hi hm b).1, ⟨h.sorted, h.keys, h.inj, h.lt⟩⟩
  unfold view SMap.mapV write
  apply List.map_congr_left
  intro e he
  simp only
  congr 1
  apply PInst.view_congr
  intro k x hx
  have : x ≠ a := fun hxa => hn e.1 k ⟨e.2, he, hxa ▸ hx⟩
  simp [Heap.put, this]

/-- A call that needs a stored belief. -/
def optCall {β : Type _} (i : Inst) (f : β → Res (Inst × Bool)) : Option β → Res (Inst × Bool)
  | some b => f b
  | none => .ok (i, false)

theorem set_same {h : Hdl} (hs : h.Sorted) {id : ℕ} {i : Inst} (hf : SMap.find h id = some i) : SMap.set h id i = h := by
  apply Hdl.sorted_ext (hs.set _ _) hs
  intro k
  rw [SMap.find_set]
  split
  · rename_i e; rw [← e, hf]
  · rfl

theorem run_propEKF (fp : FP) (near : Mat → Mat) (pred : ℕ → Inst → Int → Inst × Bool) {h : Hdl} (hs : h.Sorted) (id : ℕ) (mb Phi Q : Mat)
    (ta tb : Int) : Hdl.run fp near pred h (.propEKF id mb Phi Q ta tb) =
      h.onInst id (fun i => optCall i (fun b => i.propEKF fp b mb Phi Q ta tb) (i.beliefAt ta)) := by
  rw [Hdl.run, Hdl.onInst, Hdl.get]
  cases hf : SMap.find h id with
  | none => rfl
  | some i =>
    simp only [Res.bind_ok]
    cases hb : i.beliefAt ta with
    | none => simp only [optCall, Res.bind_ok, set_same hs hf]
    | some b => rfl

theorem run_privEKF (fp : FP) (near : Mat → Mat) (pred : ℕ → Inst → Int → Inst × Bool) {h : Hdl} (hs : h.Sorted) (id : ℕ) (Hm R r : Mat)
    (t : Int) (cfg : Cfg) : Hdl.run fp near pred h (.privEKF id Hm R r t cfg) =
      h.onInst id (fun i => optCall i (fun b => i.privEKF b t Hm R r cfg) (i.beliefAt t)) := by
  rw [Hdl.run, Hdl.onInst, Hdl.get]
  cases hf : SMap.find h id with
  | none => rfl
  | some i =>
    simp only [Res.bind_ok]
    cases hb : i.beliefAt t with
    | none => simp only [optCall, Res.bind_ok, set_same hs hf]
    | some b => rfl

theorem onInst_get (h : Hdl) (id : ℕ) (f : Inst → Res (Inst × Bool)) :
    (do
      let i ← Hdl.get h id
      let r ← f i
      .ok (h.set id r.1, r.2) : Res (Hdl × Bool)) = h.onInst id f := by
  unfold Hdl.get Hdl.onInst
  cases SMap.find h id <;> rfl

theorem setSigma_sim {s : PSt} (h : s.NoShare) (I J : ℕ) (S : Mat) (t : Int) :
    Hdl.setSigma s.view I J S t = (s.setSigma I J S t).mapv view ∧ ∀ x, s.setSigma I J S t = .ok x → x.NoShare := by
  unfold setSigma
  cases he : Hdl.setSigma s.view I J S t with
  | throws => exact ⟨rfl, fun x hx => by simp at hx⟩
  | ub => exact ⟨rfl, fun x hx => by simp at hx⟩
  | ok h' =>
    obtain ⟨w1, w2⟩ := withFactors_spec h (Hdl.setSigma_sorted (view_sorted h) he) (Hdl.setSigma_bels he)
    refine ⟨?_, fun x hx => ?_⟩
    · show Res.ok h' = Res.ok (s.withFactors h').view
      rw [w1]
    · rw [Res.bind_ok] at hx
      rw [← Res.ok.inj hx]; exact w2

/-- One call with new objects. -/
theorem step_sim (fp : FP) (near : Mat → Mat) {predP : ℕ → Heap → PInst → Int → Heap × PInst × Bool}
    {predV : ℕ → Inst → Int → Inst × Bool} (hF : Faithful predP predV) {s : PSt} (h : s.NoShare) (o : BOp) (ho : o.Ok) :
    o.val fp near predV s.view = (o.ptr fp near predP s).mapv (fun x => (x.1.view, x.2)) ∧
    ∀ x, o.ptr fp near predP s = .ok x → x.1.NoShare := by
  have hext : ∀ a, (none : Option ℕ) = some a → s.Free a := fun a ha => by simp at ha
  cases o with
  | init id b t =>
    obtain ⟨m1, m2, m3, m4, m5⟩ := make_spec h b
    have := (c81_store m1 fp id _ m3 t t b.mean).1
    rw [m2, m4] at this
    exact this
  | setBelief id b t =>
    obtain ⟨m1, m2, m3, m4, m5⟩ := make_spec h b
    have := (c81_store m1 fp id _ m3 t t b.mean).2.1
    rw [m2, m4] at this
    exact this
  | removeAfter t =>
    obtain ⟨r1, r2⟩ := removeBeliefsAfter_sim h t
    exact ⟨by rw [BOp.val, ← r1]; rfl, fun x hx => by rw [← Res.ok.inj hx]; exact r2⟩
  | removeFrom t =>
    obtain ⟨r1, r2⟩ := removeBeliefsFrom_sim h t
    exact ⟨by rw [BOp.val, ← r1]; rfl, fun x hx => by rw [← Res.ok.inj hx]; exact r2⟩
  | ev e =>
    cases e with
    | propBel id b Phi ta tb =>
      obtain ⟨m1, m2, m3, m4, m5⟩ := make_spec h b
      have := (c81_store m1 fp id _ m3 tb ta Phi).2.2
      rw [m2, m4, ← onInst_get] at this
      exact this
    | propKF id Phi Q ta tb =>
      have := onInst_sim (f := fun H i => i.propKF fp H Phi Q ta tb) (g := fun i => i.propKF fp Phi Q ta tb) h id none hext
        (fun i hi => PInst.propKF_view fp (h.sep hi) Phi Q ta tb)
      rw [← onInst_get] at this
      exact this
    | propEKF id mb Phi Q ta tb =>
      rw [BOp.val, run_propEKF fp near predV (view_sorted h), BOp.ptr]
      refine onInst_sim h id none hext (fun i hi => ?_)
      rw [PInst.beliefAt_view]
      cases hg : i.ptr.getAt ta with
      | none => exact ⟨rfl, fun r hr => by rw [← Res.ok.inj hr]; exact PInst.Step.refl (h.sep hi) none⟩
      | some e => exact PInst.propEKF_view fp (h.sep hi) e.2 mb Phi Q ta tb
    | privKF id Hm R z t cfg =>
      have := onInst_sim (f := fun H i => i.privKF H Hm R z t cfg) (g := fun i => i.privKF Hm R z t cfg) h id none hext
        (fun i hi => PInst.privKF_view (h.sep hi) Hm R z t cfg)
      rw [← onInst_get] at this
      exact this
    | privEKF id Hm R r t cfg =>
      rw [BOp.val, run_privEKF fp near predV (view_sorted h), BOp.ptr]
      refine onInst_sim h id none hext (fun i hi => ?_)
      rw [PInst.beliefAt_view]
      cases hg : i.ptr.getAt t with
      | none => exact ⟨rfl, fun r hr => by rw [← Res.ok.inj hr]; exact PInst.Step.refl (h.sep hi) none⟩
      | some e => exact PInst.privEKF_view (h.sep hi) (PInst.mem_of_getAt hg) Hm R r cfg
    | setCov a b S t =>
      obtain ⟨c1, c2⟩ := setSigma_sim h a b S t
      constructor
      · show (Hdl.setSigma s.view a b S t >>= _) = ((s.setSigma a b S t) >>= _).mapv _
        rw [c1, Res.bind_mapv, Res.mapv_bind]; rfl
      · intro x hx
        obtain ⟨y, hy, hx⟩ := bind_eq_ok (show ((s.setSigma a b S t) >>= _) = _ from hx)
        rw [← Res.ok.inj hx]; exact c2 y hy
    | jointR dH R r t cfg => exact applyObsR_sim hF near h ho R r t cfg
    | jointZ dH z R t cfg => exact applyObsZ_sim hF near h ho z R t cfg

/-- **C81** (any sequence of calls). If every belief object is handed to the filters once, a sequence of calls of any length
gives the same answers and the same histories as if each history held its own copies, and it throws or is undefined exactly
if that one does. -/
theorem c81_own_copies (fp : FP) (near : Mat → Mat) {predP : ℕ → Heap → PInst → Int → Heap × PInst × Bool}
    {predV : ℕ → Inst → Int → Inst × Bool} (hF : Faithful predP predV) (ops : List BOp) (hops : ∀ o ∈ ops, o.Ok) :
    ∀ {s : PSt}, s.NoShare →
      runOps (BOp.val fp near predV) s.view ops = (runOps (BOp.ptr fp near predP) s ops).mapv (fun x => (x.1.view, x.2)) ∧
      ∀ x, runOps (BOp.ptr fp near predP) s ops = .ok x → x.1.NoShare := by
  induction ops with
  | nil => intro s h; exact ⟨rfl, fun x hx => by rw [← Res.ok.inj hx]; exact h⟩
  | cons o r ih =>
    intro s h
    obtain ⟨e1, e2⟩ := step_sim fp near hF h o (hops o List.mem_cons_self)
    rw [runOps, runOps, e1]
    cases hx : o.ptr fp near predP s with
    | throws => exact ⟨rfl, fun x hx => by simp at hx⟩
    | ub => exact ⟨rfl, fun x hx => by simp at hx⟩
    | ok x =>
      obtain ⟨i1, i2⟩ := ih (fun o ho => hops o (List.mem_cons_of_mem _ ho)) (e2 x hx)
      simp only [Res.mapv, Res.bind_ok]
      rw [i1]
      constructor
      · cases runOps (BOp.ptr fp near predP) x.1 r <;> rfl
      · intro y hy
        obtain ⟨z, hz, hy⟩ := bind_eq_ok hy
        rw [← Res.ok.inj hy]
        exact i2 z hz

/-- The instance a call works on. -/
def target : BOp → Option ℕ
  | .init id _ _ => some id
  | .setBelief id _ _ => some id
  | .ev (.propKF id _ _ _ _) => some id
  | .ev (.propEKF id _ _ _ _ _) => some id
  | .ev (.propBel id _ _ _ _) => some id
  | .ev (.privKF id _ _ _ _ _) => some id
  | .ev (.privEKF id _ _ _ _ _) => some id
  | _ => none

theorem onInst_frame {h : Hdl} {id : ℕ} {f : Inst → Res (Inst × Bool)} {x : Hdl × Bool} (he : h.onInst id f = .ok x) {q : ℕ} (hq : q ≠ id) :
    SMap.find x.1 q = SMap.find h q := by
  unfold Hdl.onInst at he
  split at he
  · obtain ⟨r, _, he⟩ := bind_eq_ok he
    rw [← Res.ok.inj he]
    simp only
    rw [SMap.find_set_ne _ (fun e => hq e.symm)]
  · simp at he

/-- **C81** (isolation). Initialisation, propagation and private observation of one filter leave the belief history and the
factors of every other filter as they are. -/
theorem c81_isolation (fp : FP) (near : Mat → Mat) {predP : ℕ → Heap → PInst → Int → Heap × PInst × Bool}
    {predV : ℕ → Inst → Int → Inst × Bool} (hF : Faithful predP predV) {s : PSt} (h : s.NoShare) (o : BOp) {id : ℕ} (ht : target o = some id)
    {x : PSt × Bool} (hx : o.ptr fp near predP s = .ok x) {q : ℕ} (hq : q ≠ id) : x.1.view.find q = s.view.find q := by
  have ho : o.Ok := by
    cases o with
    | ev e => cases e <;> first | trivial | (exfalso; simp [target] at ht)
    | _ => trivial
  have e1 := (step_sim fp near hF h o ho).1
  rw [hx] at e1
  have e2 : o.val fp near predV s.view = .ok (x.1.view, x.2) := e1
  cases o with
  | init i b t => obtain rfl := Option.some.inj ht; exact onInst_frame (x := (x.1.view, x.2)) e2 hq
  | setBelief i b t => obtain rfl := Option.some.inj ht; exact onInst_frame (x := (x.1.view, x.2)) e2 hq
  | removeAfter t => simp [target] at ht
  | removeFrom t => simp [target] at ht
  | ev e =>
    cases e with
    | propKF i Phi Q ta tb =>
      obtain rfl := Option.some.inj ht
      rw [BOp.val, Hdl.run, onInst_get s.view i (fun j => j.propKF fp Phi Q ta tb)] at e2
      exact onInst_frame (x := (x.1.view, x.2)) e2 hq
    | propEKF i mb Phi Q ta tb =>
      obtain rfl := Option.some.inj ht
      rw [BOp.val, run_propEKF fp near predV (view_sorted h)] at e2
      exact onInst_frame (x := (x.1.view, x.2)) e2 hq
    | propBel i b Phi ta tb =>
      obtain rfl := Option.some.inj ht
      rw [BOp.val, Hdl.run, onInst_get s.view i (fun j => j.propBel fp b Phi ta tb)] at e2
      exact onInst_frame (x := (x.1.view, x.2)) e2 hq
    | privKF i Hm R z t cfg =>
      obtain rfl := Option.some.inj ht
      rw [BOp.val, Hdl.run, onInst_get s.view i (fun j => j.privKF Hm R z t cfg)] at e2
      exact onInst_frame (x := (x.1.view, x.2)) e2 hq
    | privEKF i Hm R r t cfg =>
      obtain rfl := Option.some.inj ht
      rw [BOp.val, run_privEKF fp near predV (view_sorted h)] at e2
      exact onInst_frame (x := (x.1.view, x.2)) e2 hq
    | setCov a b S t => simp [target] at ht
    | jointR dH R r t cfg => simp [target] at ht
    | jointZ dH z R t cfg => simp [target] at ht

end PSt
end Ikf
