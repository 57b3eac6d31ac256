import Verif.Lemmas.CollabInter

/-!
# The update between two agents with a measurement function against the centralised filter
-/

namespace Ikf
open Mat

theorem Buf.insertMap_same {α : Type _} (b : Buf α) (hb : b.StrictKeys) (k : Int) (v : α) (hm : (k, v) ∈ b) : b.insertMap k v = b := by
  induction b with
  | nil => simp at hm
  | cons e r ih =>
    unfold Buf.StrictKeys at hb
    rw [List.pairwise_cons] at hb
    rw [Buf.insertMap]
    rcases List.mem_cons.mp hm with he | he
    · subst he
      simp
    · have := hb.1 _ he
      simp only at this
      rw [if_neg (by omega), if_neg (by simp; omega), ih hb.2 he]

namespace Collab

theorem setBelief_same {i : Inst} (ho : i.Ord) {t : Int} {b : Belief} (hb : i.beliefAt t = some b) : i.setBelief b t = i := by
  rw [Inst.beliefAt_eq, Buf.absMap_eq_some _ ho.bel] at hb
  unfold Inst.setBelief
  rw [Buf.insertMap_same _ ho.bel t b hb]

/-! ## Participants in any order -/

theorem getBels_any (pred : ℕ → Inst → Int → Inst × Bool) (t : Int) (B : ℕ → Belief) (l : Hdl) (ids : List ℕ) : ∀ acc : SMap Belief,
    acc.Sorted → (∀ p ∈ ids, ∃ i, l.find p = some i ∧ i.bel.existAt t = true ∧ i.beliefAt t = some (B p)) →
    ∃ bs, getBels pred t ids l acc = .ok (l, some bs) ∧ bs.Sorted ∧
      ∀ p, bs.find p = match acc.find p with | some v => some v | none => if p ∈ ids then some (B p) else none := by
  induction ids with
  | nil => intro acc hs _; exact ⟨acc, rfl, hs, fun p => by cases SMap.find acc p <;> simp⟩
  | cons p r ih =>
    intro acc hs hB
    obtain ⟨i, hi, hex, hb⟩ := hB p List.mem_cons_self
    obtain ⟨bs, e1, e2, e3⟩ := ih (acc.emplace p (B p)) (hs.emplace _ _) (fun q hq => hB q (List.mem_cons_of_mem _ hq))
    refine ⟨bs, ?_, e2, ?_⟩
    · rw [getBels, hi, if_pos (by rfl), Hdl.beliefPredict, Hdl.get_ok hi, Res.bind_ok, if_pos hex, Res.bind_ok, hb]
      exact e1
    · intro q
      rw [e3, SMap.find_emplace]
      by_cases hpq : p = q
      · subst hpq
        cases hf : SMap.find acc p with
        | none => simp
        | some v => simp
      · have hqp : q ≠ p := fun e => hpq e.symm
        simp only [hpq, false_and, if_false, List.mem_cons, hqp, false_or]

/-- Beliefs and factors of one side, the participants in any order. -/
theorem getBF_any (pred : ℕ → Inst → Int → Inst × Bool) (t : Int) (B : ℕ → Belief) (l : Hdl) (ids parts : List ℕ)
    (hids : ids.Nodup) (hparts : ∀ I ∈ ids, ∃ P ∈ parts, I ≠ P)
    (hB : ∀ p ∈ ids, ∃ i, l.find p = some i ∧ i.bel.existAt t = true ∧ i.beliefAt t = some (B p)) :
    ∃ bs F, getBF pred l ids parts t = .ok (l, some (bs, F)) ∧ bs.Sorted ∧ (∀ p, bs.find p = if p ∈ ids then some (B p) else none) ∧
      F.Sorted ∧ ∀ p, F.find p = if p ∈ ids then some (sendRow (instD l p) t p parts []) else none := by
  obtain ⟨bs, e1, e2, e3⟩ := getBels_any pred t B l ids [] List.Pairwise.nil hB
  obtain ⟨F, eF, sF, fF⟩ := fccLoop_ok l t parts ids [] List.Pairwise.nil hids
    (fun _ _ => rfl) (fun I hI => ⟨by obtain ⟨i, hi, -⟩ := hB I hI; rw [hi]; rfl, hparts I hI⟩)
  refine ⟨bs, F, ?_, e2, fun p => by rw [e3]; rfl, sF, fun p => by rw [fF]; rfl⟩
  unfold getBF
  rw [e1, Res.bind_ok]
  simp only
  rw [eF, Res.bind_ok]

theorem find_dropFixed {V : Type _} (d : SMap Belief) (p : ℕ) : ∀ m : SMap V,
    (dropFixed d m).find p = if ∃ e ∈ d, e.1 = p ∧ e.2.fixed = true then none else m.find p := by
  induction d with
  | nil => intro m; simp [dropFixed]
  | cons e r ih =>
    intro m
    have h1 : dropFixed (e :: r) m = dropFixed r (if e.2.fixed then m.erase e.1 else m) := rfl
    rw [h1, ih]
    by_cases hr : ∃ x ∈ r, x.1 = p ∧ x.2.fixed = true
    · obtain ⟨x, hx, hxe⟩ := hr
      rw [if_pos ⟨x, hx, hxe⟩, if_pos ⟨x, List.mem_cons_of_mem _ hx, hxe⟩]
    · rw [if_neg hr]
      by_cases he : e.2.fixed = true
      · rw [if_pos he, SMap.find_erase]
        by_cases hp : e.1 = p
        · rw [if_pos hp, if_pos ⟨e, List.mem_cons_self, hp, he⟩]
        · rw [if_neg hp, if_neg]
          rintro ⟨x, hx, hxe⟩
          rcases List.mem_cons.mp hx with rfl | hx
          · exact hp hxe.1
          · exact hr ⟨x, hx, hxe⟩
      · rw [if_neg he, if_neg]
        rintro ⟨x, hx, hxe⟩
        rcases List.mem_cons.mp hx with rfl | hx
        · exact he hxe.2
        · exact hr ⟨x, hx, hxe⟩

theorem sorted_dropFixed {V : Type _} (d : SMap Belief) : ∀ {m : SMap V}, m.Sorted → (dropFixed d m).Sorted := by
  induction d with
  | nil => intro m h; exact h
  | cons e r ih =>
    intro m h
    have h1 : dropFixed (e :: r) m = dropFixed r (if e.2.fixed then m.erase e.1 else m) := rfl
    rw [h1]
    apply ih
    split
    · exact h.erase _
    · exact h

/-! ## The loops over the free participants -/

theorem free_iff {d : SMap Belief} (hd : d.Sorted) (hu : ∀ e ∈ d, e.2.fixed = false) (p : ℕ) : free d p = true ↔ p ∈ d.map (·.1) := by
  unfold free
  cases hf : SMap.find d p with
  | none =>
    simp only [Bool.false_eq_true, false_iff]
    intro hm
    have := (SMap.find_isSome_iff d p).mpr hm
    rw [hf] at this; simp at this
  | some b =>
    have hm := SMap.mem_of_find hf
    have := hu _ hm
    simp only at this
    simp only [this, Bool.not_false, true_iff]
    exact List.mem_map.mpr ⟨_, hm, rfl⟩

theorem cells_keys (P : Mat) (s di : ℕ) (l : List (ℕ × ℕ)) : ∀ col, ∀ x ∈ cells P s di l col, x.1 ∈ l.map (·.1) := by
  induction l with
  | nil => intro col x hx; simp [cells] at hx
  | cons y r ih =>
    intro col x hx
    rw [cells] at hx
    rcases List.mem_cons.mp hx with rfl | hx
    · simp
    · rw [List.map_cons]; exact List.mem_cons_of_mem _ (ih _ x hx)

theorem rowS_keys (P : Mat) (l : List (ℕ × ℕ)) (p dp : ℕ) : ∀ s, ∀ x ∈ rowS P l s p dp, x.1 ∈ l.map (·.1) := by
  induction l with
  | nil => intro s x hx; simp [rowS] at hx
  | cons y r ih =>
    intro s x hx
    rw [rowS] at hx
    rw [List.map_cons]
    split at hx
    · exact List.mem_cons_of_mem _ (cells_keys P s _ r _ x hx)
    · rcases List.mem_cons.mp hx with rfl | hx
      · simp
      · exact List.mem_cons_of_mem _ (ih _ x hx)

theorem setFCCsH_eq {d : SMap Belief} (hd : d.Sorted) (hu : ∀ e ∈ d, e.2.fixed = false) {P G} {t : Int}
    (hG : ∀ e ∈ d, rowOf G e.1 = frow P d e) (loc : List ℕ) : ∀ l : Hdl,
    setFCCsH t G d loc l = setFCCs t G (loc.filter (free d)) l := by
  induction loc with
  | nil => intro l; rfl
  | cons I r ih =>
    intro l
    rw [setFCCsH]
    by_cases hI : free d I = true
    · rw [if_pos hI, List.filter_cons_of_pos hI, setFCCs]
      unfold at'
      cases hf : SMap.find G I with
      | none => rfl
      | some row =>
        obtain ⟨e, he, rfl⟩ := List.mem_map.mp ((free_iff hd hu I).mp hI)
        have h1 := hG e he
        have hrow : row.filter (fun e => free d e.1) = row := by
          rw [List.filter_eq_self]
          intro x hx
          rw [free_iff hd hu]
          have : rowOf G e.1 = row := by unfold rowOf; rw [hf]; rfl
          rw [this] at h1
          rw [h1] at hx
          have := rowS_keys P _ _ _ 0 x hx
          rw [List.map_map] at this
          exact this
        simp only [Res.bind_ok, hrow, ih]
    · rw [if_neg hI, List.filter_cons_of_neg hI, ih]

theorem pickH_eq (G : SMap (SMap Mat)) (d : SMap Belief) (ids : List ℕ) : pickH G d ids = pick G (ids.filter (free d)) := by
  unfold pickH pick
  generalize ([] : SMap (SMap Mat)) = m
  induction ids generalizing m with
  | nil => rfl
  | cons a r ih =>
    rw [List.foldl_cons, ih]
    by_cases h : free d a = true
    · rw [if_pos h, List.filter_cons_of_pos h, List.foldl_cons]
    · rw [if_neg h, List.filter_cons_of_neg h]

/-! ## The update -/

section
variable {T : Agents.Tables} {a b : ℕ} {n : Net} {h : Hdl} {dim : ℕ → ℕ} {c : Central} {dH : SMap Mat} {t : Int} {ids : List ℕ}
  {near : Mat → Mat} {pred : ℕ → Inst → Int → Inst × Bool} {rb : SMap Belief}

/-- The free participants. -/
noncomputable abbrev dU (h : Hdl) (dH : SMap Mat) (t : Int) : SMap Belief := Hdl.unfixed (Hdl.dict h dH t)

variable (hr : Hdl.Rel dim h c) (hp : Hdl.Parts dim h c dH t) (hd : Dist T n h) (h2 : Two T n a b dH) (hperm : ids.Perm dH.keys)
include hr hp hd

theorem mem_dU {p : ℕ} : p ∈ (dU h dH t).map (·.1) ↔ p ∈ dH.keys ∧ c.fix p = false := by
  constructor
  · intro hm
    obtain ⟨e, he, rfl⟩ := List.mem_map.mp hm
    obtain ⟨u, v⟩ := Hdl.mem_unfixed.mp he
    have := Hdl.mem_dict hr hp u
    exact ⟨this.1, by rw [← this.2.2.2.2.2.2.2.1]; exact v⟩
  · rintro ⟨h1, h3⟩
    have he : (p, Hdl.blD h t p) ∈ Hdl.dict h dH t := List.mem_map.mpr ⟨p, h1, rfl⟩
    have := Hdl.mem_dict hr hp he
    refine List.mem_map.mpr ⟨_, Hdl.mem_unfixed.mpr ⟨he, ?_⟩, rfl⟩
    rw [this.2.2.2.2.2.2.2.1]; exact h3

include h2 hperm in
theorem sidesH (hne : dU h dH t ≠ []) (htwo : 2 ≤ (dU h dH t).length ∨ ∀ p ∈ dH.keys, holds n a p = true → c.fix p = true)
    (hrbs : rb.Sorted) (hrb : ∀ p, rb.find p = if p ∈ ids.filter (fun p => !holds n a p) then some (Hdl.blD h t p) else none) :
    Sides (dU h dH t) rb ((ids.filter (fun p => !holds n a p)).filter (free (dU h dH t)))
      ((ids.filter (holds n a)).filter (free (dU h dH t))) t (holds n a) (n a) (n b) h := by
  have hds := Hdl.unfixed_sorted (Hdl.dict_sorted (h := h) hp)
  have hu : ∀ e ∈ dU h dH t, e.2.fixed = false := fun e he => (Hdl.mem_unfixed.mp he).2
  have hm : ∀ e ∈ dU h dH t, _ := fun e he => Hdl.mem_dict hr hp (Hdl.mem_unfixed.mp he).1
  have hfree := free_iff hds hu
  have hnd : ids.Nodup := hperm.nodup_iff.mpr (((SMap.sorted_iff_keys dH).mp hp.sorted).imp fun h e => by rw [e] at h; exact lt_irrefl _ h)
  have hkey : ∀ p, p ∈ (dU h dH t).map (·.1) → p ∈ ids := fun p h => hperm.mem_iff.mpr ((mem_dU hr hp hd).mp h).1
  constructor
  · exact hds
  · exact hne
  · refine htwo.imp id fun hl => ?_
    rw [List.filter_eq_nil_iff]
    intro p hpm hf
    obtain ⟨u, v⟩ := List.mem_filter.mp hpm
    have h3 := (mem_dU hr hp hd).mp ((hfree p).mp hf)
    rw [hl p h3.1 v] at h3
    simp at h3
  · exact hu
  · exact fun p h => h
  · intro e he hq
    have ho := hd.local (a := a) hq
    have := hd.own e.1
    rw [ho] at this
    exact ⟨this, hq⟩
  · intro e he hq
    have := hd.own e.1
    rw [h2.owner e.1 (hm e he).1 hq] at this
    exact this
  · intro e he hq
    have := hd.own e.1
    rw [h2.owner e.1 (hm e he).1 hq] at this
    obtain ⟨i, h1, -, h3⟩ := stored_at hr hp hd (hm e he).1 this
    refine ⟨i, h1, ?_⟩
    obtain ⟨p, hpm, rfl⟩ := List.mem_map.mp (Hdl.mem_unfixed.mp he).1
    exact h3
  · exact hrbs
  · intro e he
    have hf := (SMap.find_eq_some hrbs e.1 e.2).mpr he
    rw [hrb] at hf
    split at hf
    · rename_i hm'
      obtain ⟨u, v⟩ := List.mem_filter.mp hm'
      have hq : holds n a e.1 = false := by simpa using v
      refine ⟨hq, fun _ => ?_⟩
      have hk := hperm.mem_iff.mp u
      have := hd.own e.1
      rw [h2.owner e.1 hk hq] at this
      obtain ⟨i, h1, -, h3⟩ := stored_at hr hp hd hk this
      refine ⟨i, h1, setBelief_same (hr.ok.ord e.1 i (by rw [← this, h1])) ?_⟩
      rw [h3, Option.some.inj hf]
    · simp at hf
  · exact (hnd.filter _).filter _
  · intro p
    rw [List.mem_filter, List.mem_filter, hfree]
    constructor
    · rintro ⟨⟨u, v⟩, w⟩; exact ⟨w, v⟩
    · rintro ⟨w, v⟩; exact ⟨⟨hkey p w, v⟩, w⟩
  · intro p
    rw [List.mem_filter, List.mem_filter, hfree]
    constructor
    · rintro ⟨⟨u, v⟩, w⟩; exact ⟨w, by simpa using v⟩
    · rintro ⟨w, v⟩; exact ⟨⟨hkey p w, by simpa using v⟩, w⟩

include h2 hperm in
/-- The update between agents `a` and `b` with a measurement function, with its messages resolved. -/
theorem interH_unfold : ∃ S rb, StackedCov (participants dim c dH) c.cov S ∧ rb.Sorted ∧
    (∀ p, SMap.find rb p = if p ∈ ids.filter (fun p => !holds n a p) then some (Hdl.blD h t p) else none) ∧
    ∀ (near : Mat → Mat) (pred : ℕ → Inst → Int → Inst × Bool) (hf : SMap Belief → List ℕ → Mat → SMap Mat × Mat) (lk : Link)
      (_ : lk.recv = true) (R z : Mat) (cfg : Cfg),
      interH near pred hf lk (n a) (n b) R z t ids cfg (ids.filter (fun p => !holds n a p)) (ids.filter (holds n a)) =
        (do
          let H ← Hdl.stackH (dropFixed (Hdl.dict h dH t) (hf (Hdl.dict h dH t) ids z).1)
          let res ← correctionStep H R (hf (Hdl.dict h dH t) ids z).2 (Hdl.fixPsd near (stabM S (1 / 10^12))) cfg
          if !res.rejected then do
            let P := Hdl.fixPsd near res.Sapos
            let l1 ← applyCorrL P t (dU h dH t) 0 (n a)
            let G ← splitL P (dU h dH t)
            let l2 ← setFCCsH t G (dU h dH t) (ids.filter (holds n a)) l1
            let x ← correctL P res.dx t (dU h dH t) 0 (l2, rb)
            if lk.send then do
              let rm' ← remoteSet t (pickH G (dU h dH t) (ids.filter (fun p => !holds n a p))) x.2 (n b)
              .ok (x.1, rm', .processed, (hf (Hdl.dict h dH t) ids z).2)
            else .ok (x.1, n b, .outOfOrder, Mat.zero 0 1)
          else .ok (n a, n b, .rejected, (hf (Hdl.dict h dH t) ids z).2)) := by
  have hk : dH.keys.Pairwise (· < ·) := (SMap.sorted_iff_keys dH).mp hp.sorted
  have hnd : ids.Nodup := hperm.nodup_iff.mpr (hk.imp fun h e => by rw [e] at h; exact lt_irrefl _ h)
  have hmemf : ∀ (q : ℕ → Bool) p, p ∈ ids.filter q ↔ p ∈ dH.keys ∧ q p = true := by
    intro q p; rw [List.mem_filter, hperm.mem_iff]
  obtain ⟨pl, hpl⟩ := List.exists_mem_of_ne_nil _ h2.left
  obtain ⟨pr, hpr⟩ := List.exists_mem_of_ne_nil _ h2.right
  have hpl' : pl ∈ ids.filter (holds n a) := (hmemf _ _).mpr (List.mem_filter.mp hpl)
  have hpr' : pr ∈ ids.filter (fun p => !holds n a p) := (hmemf _ _).mpr (List.mem_filter.mp hpr)
  have hlr : ∀ {x y}, x ∈ ids.filter (holds n a) → y ∈ ids.filter (fun p => !holds n a p) → x ≠ y := by
    intro x y hx hy e
    subst e
    have u := (List.mem_filter.mp hx).2
    have v := (List.mem_filter.mp hy).2
    rw [u] at v; simp at v
  set parts := ids.filter (fun p => !holds n a p) ++ ids.filter (holds n a) with hparts
  have hpp : parts.Perm dH.keys := by
    rw [hparts]
    exact (List.perm_append_comm.trans (List.filter_append_perm _ _)).trans hperm
  have hgl := fun pred => getBF_any pred t (Hdl.blD h t) (n a) (ids.filter (holds n a)) parts (hnd.filter _)
      (fun I hI => ⟨pr, List.mem_append_left _ hpr', hlr hI hpr'⟩)
      (fun p hm => by
        obtain ⟨u, v⟩ := (hmemf _ p).mp hm
        refine stored_at hr hp hd u ?_
        have := hd.own p
        rw [hd.local (a := a) v] at this
        exact this)
  have hgr := fun pred => getBF_any pred t (Hdl.blD h t) (n b) (ids.filter (fun p => !holds n a p)) parts (hnd.filter _)
      (fun I hI => ⟨pl, List.mem_append_right _ hpl', fun e => hlr hpl' hI e.symm⟩)
      (fun p hm => by
        obtain ⟨u, v⟩ := (hmemf _ p).mp hm
        refine stored_at hr hp hd u ?_
        have := hd.own p
        rw [h2.owner p u (by simpa using v)] at this
        exact this)
  have hinst : ∀ p ∈ dH.keys, instD (if holds n a p then n a else n b) p = instD h p := by
    intro p hpm
    apply instD_find
    have := hd.own p
    cases hq : holds n a p with
    | true => rw [if_pos rfl]; rw [hd.local (a := a) hq] at this; exact this
    | false => rw [if_neg (by simp)]; rw [h2.owner p hpm hq] at this; exact this
  -- the merged dictionaries
  obtain ⟨lb0, lF0, -, hlb0, hlbf0, hlF0, hlFf0⟩ := hgl (fun _ i _ => (i, false))
  obtain ⟨rb0, rF0, -, hrb0, hrbf0, hrF0, hrFf0⟩ := hgr (fun _ i _ => (i, false))
  have hdict : insertAll (insertAll [] lb0) rb0 = Hdl.dict h dH t := by
    refine SMap.ext_find (sorted_insertAll _ (sorted_insertAll _ List.Pairwise.nil)) (Hdl.dict_sorted hp) fun p => ?_
    unfold Hdl.dict
    rw [find_insertAll, find_insertAll, SMap.find_nil, hlbf0, hrbf0, SMap.find_map (Hdl.blD h t)]
    simp only [hmemf]
    by_cases h1 : p ∈ dH.keys
    · cases holds n a p <;> simp [h1]
    · simp [h1]
  obtain ⟨S, hSe, hSC⟩ := Hdl.stackSigma_spec (Hdl.dict h dH t) (Hdl.dict_sorted hp) (Hdl.covOf hr hp)
  rw [← Hdl.participants_eq hr hp] at hSC
  have hu : ∀ e ∈ dU h dH t, e.2.fixed = false := fun e he => (Hdl.mem_unfixed.mp he).2
  have hds := Hdl.unfixed_sorted (Hdl.dict_sorted (h := h) hp)
  have hF : dropFixed (Hdl.dict h dH t) (insertAll (insertAll [] lF0) rF0) =
      ((dU h dH t).map (·.1)).map (fun p => (p, sendRow (instD h p) t p parts [])) := by
    refine SMap.ext_find (sorted_dropFixed _ (sorted_insertAll _ (sorted_insertAll _ List.Pairwise.nil)))
      (SMap.sorted_map (fun p => sendRow (instD h p) t p parts []) (List.pairwise_map.mpr hds)) fun p => ?_
    rw [find_dropFixed, find_insertAll, find_insertAll, SMap.find_nil, hlFf0, hrFf0,
      SMap.find_map (fun p => sendRow (instD h p) t p parts [])]
    simp only [hmemf]
    by_cases h1 : p ∈ dH.keys
    · have he : (p, Hdl.blD h t p) ∈ Hdl.dict h dH t := List.mem_map.mpr ⟨p, h1, rfl⟩
      have hfx := (Hdl.mem_dict hr hp he).2.2.2.2.2.2.2.1
      simp only at hfx
      have hi := hinst p h1
      cases hc : c.fix p with
      | true =>
        rw [if_pos ⟨_, he, rfl, by rw [hfx]; exact hc⟩, if_neg]
        intro hm
        have := ((mem_dU hr hp hd).mp hm).2
        rw [hc] at this; simp at this
      | false =>
        rw [if_neg, if_pos ((mem_dU hr hp hd).mpr ⟨h1, hc⟩)]
        · cases hq : holds n a p with
          | true => rw [hq, if_pos rfl] at hi; simp [h1, hi]
          | false => rw [hq, if_neg (by simp)] at hi; simp [h1, hi]
        · rintro ⟨e, he', hk', hf'⟩
          have := (Hdl.mem_dict hr hp he').2.2.2.2.2.2.2.1
          rw [hf', hk', hc] at this
          simp at this
    · rw [if_neg, if_neg (fun hm => h1 ((mem_dU hr hp hd).mp hm).1)]
      · simp [h1]
      · rintro ⟨e, he', hk', hf'⟩
        exact h1 (by rw [← hk']; exact (Hdl.mem_dict hr hp he').1)
  have hprior : (stackSigmaL (dU h dH t) (((dU h dH t).map (·.1)).map (fun p => (p, sendRow (instD h p) t p parts []))) >>= fun S0 =>
      stabilize S0 (1 / 10^12)) = .ok (stabM S (1 / 10^12)) := by
    unfold stackSigmaL
    rw [if_pos (by rw [List.length_map, List.length_map])]
    have hkd : ∀ e ∈ dU h dH t, e.1 ∈ (dU h dH t).map (·.1) := fun e he => List.mem_map.mpr ⟨e, he, rfl⟩
    have hkk : ∀ p ∈ (dU h dH t).map (·.1), p ∈ dH.keys := fun p hm => ((mem_dU hr hp hd).mp hm).1
    rw [dims_eq _ hu, stackRowsL_eq h t _ ((dU h dH t).map (·.1)) ?_ (fun I hI => hp.reg I (hkk I hI)) _ hkd hu ?_ _ hkd hu]
    · rw [Hdl.stackSigma_unfixed] at hSe
      unfold Hdl.stackSigma at hSe
      obtain ⟨M, hM, hS2⟩ := Hdl.bind_eq_ok hSe
      rw [hM, Res.bind_ok]
      have := stabilize_symm M (1 / 10^12)
      rw [hS2, Res.bind_ok] at this
      rw [← this, stabilize_ok hSC.1]
    · intro I hI
      refine ⟨sendRow (instD h I) t I parts [], ?_, ?_⟩
      · rw [SMap.find_map (fun p => sendRow (instD h p) t p parts []), if_pos hI]
      · intro J hJ hne
        rw [find_sendRow, SMap.find_nil]
        simp only
        rw [if_pos ⟨hpp.mem_iff.mpr (hkk J hJ), hne⟩]
    · intro I hI
      rw [SMap.find_map (fun p => sendRow (instD h p) t p parts []), if_pos hI, Option.getD_some,
        length_sendRow _ _ _ _ (hpp.nodup_iff.mpr (hperm.nodup_iff.mp hnd)) (hpp.mem_iff.mpr (hkk I hI)), hpp.length_eq]
      have : (dU h dH t).length ≤ (Hdl.dict h dH t).length := List.length_filter_le _ _
      have h3 : (Hdl.dict h dH t).length = dH.keys.length := by unfold Hdl.dict; rw [List.length_map]
      omega
  obtain ⟨S0, hS0, hS1⟩ := Hdl.bind_eq_ok hprior
  refine ⟨S, rb0, hSC, hrb0, hrbf0, ?_⟩
  intro near pred hf lk hrecv R z cfg
  obtain ⟨lb, lF, e1, hlb, hlbf, hlF, hlFf⟩ := hgl pred
  obtain ⟨rb, rF, e2, hrb, hrbf, hrF, hrFf⟩ := hgr pred
  have q1 : lb = lb0 := SMap.ext_find hlb hlb0 fun p => by rw [hlbf, hlbf0]
  have q2 : rb = rb0 := SMap.ext_find hrb hrb0 fun p => by rw [hrbf, hrbf0]
  have q3 : lF = lF0 := SMap.ext_find hlF hlF0 fun p => by rw [hlFf, hlFf0]
  have q4 : rF = rF0 := SMap.ext_find hrF hrF0 fun p => by rw [hrFf, hrFf0]
  subst q1 q2 q3 q4
  unfold interH
  dsimp only
  rw [← hparts, e1, Res.bind_ok]
  dsimp only
  have hln : lb.isEmpty = false := by
    cases hl : lb with
    | nil => have := hlbf pl; rw [hl, if_pos hpl'] at this; simp at this
    | cons => rfl
  have hrn : rb.isEmpty = false := by
    cases hl : rb with
    | nil => have := hrbf pr; rw [hl, if_pos hpr'] at this; simp at this
    | cons => rfl
  rw [hln, if_neg (by simp), if_pos hrecv, e2, Res.bind_ok]
  dsimp only
  rw [hrn, if_neg (by simp)]
  unfold interTailH
  dsimp only
  rw [hdict, hF]
  cases Hdl.stackH (dropFixed (Hdl.dict h dH t) (hf (Hdl.dict h dH t) ids z).1) with
  | throws => rfl
  | ub => rfl
  | ok H => rw [Res.bind_ok, Res.bind_ok, hS0, Res.bind_ok, hS1, Res.bind_ok]

omit hr hp in
/-- Both sides together are one handler again. -/
theorem dist_sides (hne : a ≠ b) {keys : List ℕ} (howner : ∀ p ∈ keys, holds n a p = false → Agents.agentOf T p = b) {l' rm' h' : Hdl}
    (k1 : ∀ p ∈ keys, holds n a p = true → l'.find p = h'.find p) (k2 : ∀ p, (p ∉ keys ∨ holds n a p = false) → l'.find p = (n a).find p)
    (k3 : ∀ p ∈ keys, holds n a p = false → rm'.find p = h'.find p) (k4 : ∀ p, (p ∉ keys ∨ holds n a p = true) → rm'.find p = (n b).find p)
    (k5 : ∀ p, p ∉ keys → h'.find p = h.find p) : Dist T (Function.update (Function.update n a l') b rm') h' := by
  intro x p
  by_cases hm : p ∈ keys
  · cases hq : holds n a p with
    | true =>
      have ho : Agents.agentOf T p = a := hd.local (a := a) hq
      by_cases hxb : x = b
      · subst hxb
        rw [Function.update_self, k4 p (Or.inr hq), hd, ho, if_neg hne, if_neg hne]
      · rw [Function.update_of_ne hxb]
        by_cases hxa : x = a
        · subst hxa
          rw [Function.update_self, k1 p hm hq, if_pos ho]
        · rw [Function.update_of_ne hxa, hd, ho, if_neg (fun e => hxa e.symm), if_neg (fun e => hxa e.symm)]
    | false =>
      have ho := howner p hm hq
      by_cases hxb : x = b
      · subst hxb
        rw [Function.update_self, k3 p hm hq, if_pos ho]
      · rw [Function.update_of_ne hxb]
        by_cases hxa : x = a
        · subst hxa
          rw [Function.update_self, k2 p (Or.inr hq), hd, ho, if_neg (fun e => hxb e.symm), if_neg (fun e => hxb e.symm)]
        · rw [Function.update_of_ne hxa, hd, ho, if_neg (fun e => hxb e.symm), if_neg (fun e => hxb e.symm)]
  · have hx : ((Function.update (Function.update n a l') b rm') x).find p = (n x).find p := by
      by_cases hxb : x = b
      · subst hxb
        rw [Function.update_self, k4 p (Or.inl hm)]
      · rw [Function.update_of_ne hxb]
        by_cases hxa : x = a
        · subst hxa
          rw [Function.update_self, k2 p (Or.inl hm)]
        · rw [Function.update_of_ne hxa]
    rw [hx, hd, k5 p hm]

/-- When the posterior has a place to go: there is a free participant, and it is not the only one unless it is remote. -/
def Room (h : Hdl) (dH : SMap Mat) (t : Int) (n : Net) (a : ℕ) : Prop :=
  dU h dH t ≠ [] ∧ (2 ≤ (dU h dH t).length ∨ ∀ e ∈ dU h dH t, holds n a e.1 = false)

omit hr hp hd in
/-- Without a place to go the factors of the only local participant are missing. -/
theorem no_room {P : Mat} {N : ℕ} (hP : P.Shape N N) (hN : total (dU h dH t) ≤ N) (hs : (dU h dH t).Sorted) (hu : ∀ e ∈ dU h dH t, e.2.fixed = false)
    (hids : ∀ p ∈ (dU h dH t).map (·.1), p ∈ ids) (hno : ¬ Room h dH t n a) :
    (∃ y, applyCorrL P t (dU h dH t) 0 (n a) = .ok y) → (do
      let l1 ← applyCorrL P t (dU h dH t) 0 (n a)
      let G ← splitL P (dU h dH t)
      setFCCsH t G (dU h dH t) (ids.filter (holds n a)) l1) = .throws := by
  rintro ⟨l1, hl1⟩
  rw [hl1, Res.bind_ok]
  unfold Room at hno
  generalize dU h dH t = d at *
  match d with
  | [] => rfl
  | [e] =>
    have hq : holds n a e.1 = true := by
      by_contra hq
      exact hno ⟨by simp, Or.inr (by intro x hx; rw [List.mem_singleton] at hx; rw [hx]; simpa using hq)⟩
    have hG : splitL P [e] = .ok [] := rfl
    rw [hG, Res.bind_ok]
    have hf := free_iff hs hu
    have hmem : e.1 ∈ ids.filter (holds n a) := List.mem_filter.mpr ⟨hids e.1 (by simp), hq⟩
    generalize ids.filter (holds n a) = loc at hmem
    induction loc with
    | nil => simp at hmem
    | cons I r ih =>
      rw [setFCCsH]
      by_cases hI : free [e] I = true
      · rw [if_pos hI]; rfl
      · rw [if_neg hI]
        rcases List.mem_cons.mp hmem with h1 | h1
        · exact absurd ((hf I).mpr (by rw [← h1]; simp)) hI
        · exact ih h1
  | e :: e' :: r => exact absurd ⟨by simp, Or.inl (by simp)⟩ hno

theorem room_imp (hroom : Room h dH t n a) : 2 ≤ (dU h dH t).length ∨ ∀ p ∈ dH.keys, holds n a p = true → c.fix p = true := by
  refine hroom.2.imp id fun hl p hpm hq => ?_
  by_contra hc
  have hm := (mem_dU hr hp hd).mpr ⟨hpm, by simpa using hc⟩
  obtain ⟨e, he, rfl⟩ := List.mem_map.mp hm
  rw [hl e he] at hq
  simp at hq

/-- Facts about an accepted correction. -/
theorem accept_facts (hnear : Hdl.NearOk near) {S H R r : Mat} {cfg : Cfg} {res : CorrRes} (hSC : StackedCov (participants dim c dH) c.cov S)
    (hres : correctionStep H R r (Hdl.fixPsd near (stabM S (1 / 10^12))) cfg = .ok res) (hrj : res.rejected = false) :
    (Hdl.fixPsd near res.Sapos).Shape (tot (participants dim c dH)) (tot (participants dim c dH)) ∧
    (Hdl.fixPsd near res.Sapos).tr = Hdl.fixPsd near res.Sapos ∧ res.dx.Shape (tot (participants dim c dH)) 1 ∧
    total (dU h dH t) ≤ tot (participants dim c dH) := by
  obtain ⟨hP0, -⟩ := Hdl.fixPsd_facts hnear (hSC.1.stabM (1 / 10^12)) (stabM_tr' hSC.1 _)
  obtain ⟨hO, hres'⟩ := Inst.correctionStep_accept hP0 cfg res hres hrj
  have hP : res.Sapos.Shape (tot (participants dim c dH)) (tot (participants dim c dH)) := by rw [hres']; exact postM_shape hO cfg
  have hPs : res.Sapos.tr = res.Sapos := by rw [hres']; exact Hdl.postM_symm hO cfg
  have hdx : res.dx.Shape (tot (participants dim c dH)) 1 := by rw [hres']; exact (gainM_shape hO _).mul hO.r
  obtain ⟨hP1, hP2⟩ := Hdl.fixPsd_facts hnear hP hPs
  exact ⟨hP1, hP2, hdx, by rw [total_tot, Hdl.participants_eq hr hp]⟩

theorem part_ne (hroom : dU h dH t ≠ []) : participants dim c dH ≠ [] := by
  rw [Hdl.participants_eq hr hp]
  intro e
  exact hroom (List.map_eq_nil_iff.mp e)

include h2 in
/-- The local corrections go through. -/
theorem applyCorrL_free {P dx : Mat} (hP1 : P.Shape (tot (participants dim c dH)) (tot (participants dim c dH))) (hP2 : P.tr = P)
    (hdx : dx.Shape (tot (participants dim c dH)) 1) (hN : total (dU h dH t) ≤ tot (participants dim c dH)) (hne : dU h dH t ≠ []) :
    ∃ y, applyCorrL P t (dU h dH t) 0 (n a) = .ok y := by
  have hds := Hdl.unfixed_sorted (Hdl.dict_sorted (h := h) hp)
  have hu : ∀ e ∈ dU h dH t, e.2.fixed = false := fun e he => (Hdl.mem_unfixed.mp he).2
  obtain ⟨h', hc, -⟩ := Hdl.commit_rel hr hp (part_ne hr hp hd hne) hP1 hP2 hdx
  rw [Hdl.commit_unfixed] at hc
  obtain ⟨k1, -⟩ := commit_ok hP1 hdx _ hds hu hN hc
  rw [applyCorrL_upds (q := holds n a) hP1 _ 0 (n a) (by omega) (fun e he => rfl)]
  refine upds_ex _ (((List.filter_sublist (p := fun x => holds n a x.1.1)).map _).nodup (posn_nodup hds 0)) fun x hx => ?_
  obtain ⟨u, v⟩ := List.mem_filter.mp hx
  obtain ⟨i, j, u1, u2, -⟩ := k1 x u
  unfold upd1 at u2
  obtain ⟨k, w1, -⟩ := Hdl.bind_eq_ok u2
  refine ⟨i, k, ?_, w1⟩
  have := hd.own x.1.1
  rw [hd.local (a := a) v] at this
  rw [this, u1]

include h2 hperm in
/-- The update between agents `a` and `b` with a measurement function, answer by answer. -/
theorem interH_spec (hnear : Hdl.NearOk near) (hf : SMap Belief → List ℕ → Mat → SMap Mat × Mat) (lk : Link) (hrecv : lk.recv = true)
    (R z : Mat) (cfg : Cfg) {y : Hdl × Hdl × Status × Mat}
    (hy : interH near pred hf lk (n a) (n b) R z t ids cfg (ids.filter (fun p => !holds n a p)) (ids.filter (holds n a)) = .ok y) :
    ∃ H S res, Hdl.stackH (dropFixed (Hdl.dict h dH t) (hf (Hdl.dict h dH t) ids z).1) = .ok H ∧
      StackedCov (participants dim c dH) c.cov S ∧
      correctionStep H R (hf (Hdl.dict h dH t) ids z).2 (Hdl.fixPsd near (stabM S (1 / 10^12))) cfg = .ok res ∧
      (res.rejected = true → y = (n a, n b, .rejected, (hf (Hdl.dict h dH t) ids z).2)) ∧
      (res.rejected = false → Room h dH t n a ∧ ∃ h' l' rm', Hdl.SameDom h h' ∧
        Hdl.Rel dim h' (c.joint (participants dim c dH) (Hdl.fixPsd near res.Sapos) res.dx) ∧
        Dist T (Function.update (Function.update n a l') b rm') h' ∧
        y = if lk.send then (l', rm', .processed, (hf (Hdl.dict h dH t) ids z).2) else (l', n b, .outOfOrder, Mat.zero 0 1)) := by
  have hne := h2.ne hd hp
  obtain ⟨S, rb, hSC, hrbs, hrbf, hU⟩ := interH_unfold hr hp hd h2 hperm
  rw [hU near pred hf lk hrecv R z cfg] at hy
  obtain ⟨H, hH, hy⟩ := Hdl.bind_eq_ok hy
  obtain ⟨res, hres, hy⟩ := Hdl.bind_eq_ok hy
  refine ⟨H, S, res, hH, hSC, hres, ?_, ?_⟩
  · intro hrj
    rw [hrj, if_neg (by simp)] at hy
    exact (Res.ok.inj hy).symm
  · intro hrj
    rw [hrj, if_pos (show (!false) = true from rfl)] at hy
    dsimp only at hy
    obtain ⟨hP1, hP2, hdx, hN⟩ := accept_facts hr hp hd hnear hSC hres hrj
    have hds := Hdl.unfixed_sorted (Hdl.dict_sorted (h := h) hp)
    have hu : ∀ e ∈ dU h dH t, e.2.fixed = false := fun e he => (Hdl.mem_unfixed.mp he).2
    have hids : ∀ p ∈ (dU h dH t).map (·.1), p ∈ ids := fun p hm => hperm.mem_iff.mpr ((mem_dU hr hp hd).mp hm).1
    have hroom : Room h dH t n a := by
      by_contra hno
      obtain ⟨l1, i1, hy⟩ := Hdl.bind_eq_ok hy
      obtain ⟨G, i2, hy⟩ := Hdl.bind_eq_ok hy
      obtain ⟨l2, i3, hy⟩ := Hdl.bind_eq_ok hy
      have := no_room hP1 hN hds hu hids hno ⟨l1, i1⟩
      rw [i1, Res.bind_ok, i2, Res.bind_ok, i3] at this
      simp at this
    refine ⟨hroom, ?_⟩
    have hs := sidesH hr hp hd h2 hperm hroom.1 (room_imp hr hp hd hroom) hrbs hrbf
    obtain ⟨h', hc, hr'⟩ := Hdl.commit_rel hr hp (part_ne hr hp hd hroom.1) hP1 hP2 hdx
    have hsame := (Hdl.commit_frame hc).1
    rw [Hdl.commit_unfixed] at hc
    obtain ⟨⟨l', rm'⟩, hic⟩ := interCommit_ex hP1 hdx hN hs hc
    obtain ⟨h'', hc2, k1, k2, k3, k4, k5⟩ := interCommit_sim hP1 hdx hN hs hic
    rw [hc] at hc2
    rw [← Res.ok.inj hc2] at k1 k3 k5
    refine ⟨h', l', rm', hsame, hr', ?_, ?_⟩
    · exact dist_sides hd hne (fun p hm hq => h2.owner p ((mem_dU hr hp hd).mp hm).1 hq) k1 k2 k3 k4 k5
    · unfold interCommit at hic
      obtain ⟨l1, i1, hic⟩ := Hdl.bind_eq_ok hic
      obtain ⟨G, i2, hic⟩ := Hdl.bind_eq_ok hic
      obtain ⟨l2, i3, hic⟩ := Hdl.bind_eq_ok hic
      obtain ⟨z, i4, hic⟩ := Hdl.bind_eq_ok hic
      obtain ⟨rm2, i5, hic⟩ := Hdl.bind_eq_ok hic
      obtain ⟨G', i2', hG, -⟩ := splitL_row hP1 _ hds hroom.1 hN
      rw [i2] at i2'
      rw [← Res.ok.inj i2'] at hG
      rw [i1, Res.bind_ok, i2, Res.bind_ok, setFCCsH_eq hds hu hG, i3, Res.bind_ok, i4, Res.bind_ok, pickH_eq] at hy
      obtain ⟨j1, j2⟩ := Prod.mk.inj (Res.ok.inj hic)
      cases hsd : lk.send with
      | true =>
        rw [hsd, if_pos rfl, i5, Res.bind_ok, j1, j2] at hy
        rw [if_pos rfl]; exact (Res.ok.inj hy).symm
      | false =>
        rw [hsd, if_neg (by simp), j1] at hy
        rw [if_neg (by simp)]; exact (Res.ok.inj hy).symm

include h2 hperm in
/-- With fitting matrices the update goes through if the posterior has a place to go, and throws otherwise. -/
theorem interH_ex (hnear : Hdl.NearOk near) (hf : SMap Belief → List ℕ → Mat → SMap Mat × Mat) (lk : Link) (hrecv : lk.recv = true)
    (R z : Mat) (cfg : Cfg) {H : Mat} (hH : Hdl.stackH (dropFixed (Hdl.dict h dH t) (hf (Hdl.dict h dH t) ids z).1) = .ok H) :
    ∃ S, StackedCov (participants dim c dH) c.cov S ∧
    ∀ res, correctionStep H R (hf (Hdl.dict h dH t) ids z).2 (Hdl.fixPsd near (stabM S (1 / 10^12))) cfg = .ok res →
      (res.rejected = true ∨ Room h dH t n a →
        ∃ y, interH near pred hf lk (n a) (n b) R z t ids cfg (ids.filter (fun p => !holds n a p)) (ids.filter (holds n a)) = .ok y) ∧
      (res.rejected = false → ¬ Room h dH t n a →
        interH near pred hf lk (n a) (n b) R z t ids cfg (ids.filter (fun p => !holds n a p)) (ids.filter (holds n a)) = .throws) := by
  obtain ⟨S, rb, hSC, hrbs, hrbf, hU⟩ := interH_unfold hr hp hd h2 hperm
  refine ⟨S, hSC, fun res hres => ?_⟩
  rw [hU near pred hf lk hrecv R z cfg, hH, Res.bind_ok, hres, Res.bind_ok]
  have hds := Hdl.unfixed_sorted (Hdl.dict_sorted (h := h) hp)
  have hu : ∀ e ∈ dU h dH t, e.2.fixed = false := fun e he => (Hdl.mem_unfixed.mp he).2
  cases hrj : res.rejected with
  | true => exact ⟨fun _ => ⟨_, rfl⟩, fun h => by simp at h⟩
  | false =>
    obtain ⟨hP1, hP2, hdx, hN⟩ := accept_facts hr hp hd hnear hSC hres hrj
    rw [if_pos (show (!false) = true from rfl)]
    dsimp only
    constructor
    · intro hroom
      have hroom := hroom.resolve_left (by simp)
      have hs := sidesH hr hp hd h2 hperm hroom.1 (room_imp hr hp hd hroom) hrbs hrbf
      obtain ⟨h', hc, -⟩ := Hdl.commit_rel hr hp (part_ne hr hp hd hroom.1) hP1 hP2 hdx
      rw [Hdl.commit_unfixed] at hc
      obtain ⟨⟨l', rm'⟩, hic⟩ := interCommit_ex hP1 hdx hN hs hc
      unfold interCommit at hic
      obtain ⟨l1, i1, hic⟩ := Hdl.bind_eq_ok hic
      obtain ⟨G, i2, hic⟩ := Hdl.bind_eq_ok hic
      obtain ⟨l2, i3, hic⟩ := Hdl.bind_eq_ok hic
      obtain ⟨z, i4, hic⟩ := Hdl.bind_eq_ok hic
      obtain ⟨rm2, i5, hic⟩ := Hdl.bind_eq_ok hic
      obtain ⟨G', i2', hG, -⟩ := splitL_row hP1 _ hds hroom.1 hN
      rw [i2] at i2'
      rw [← Res.ok.inj i2'] at hG
      rw [i1, Res.bind_ok, i2, Res.bind_ok, setFCCsH_eq hds hu hG, i3, Res.bind_ok, i4, Res.bind_ok, pickH_eq]
      cases lk.send with
      | true => rw [if_pos rfl, i5, Res.bind_ok]; exact ⟨_, rfl⟩
      | false => rw [if_neg (by simp)]; exact ⟨_, rfl⟩
    · intro _ hno
      have hids : ∀ p ∈ (dU h dH t).map (·.1), p ∈ ids := fun p hm => hperm.mem_iff.mpr ((mem_dU hr hp hd).mp hm).1
      by_cases hne : dU h dH t = []
      · rw [hne]; rfl
      · have hex := applyCorrL_free hr hp hd h2 hP1 hP2 hdx hN hne
        have := no_room hP1 hN hds hu hids hno hex
        obtain ⟨l1, hl1⟩ := hex
        rw [hl1, Res.bind_ok] at this ⊢
        obtain ⟨G, i2, -, -⟩ := splitL_row hP1 _ hds hne hN
        rw [i2, Res.bind_ok] at this ⊢
        rw [this]; rfl

end

end Collab
end Ikf
