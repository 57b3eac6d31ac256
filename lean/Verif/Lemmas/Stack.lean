import Verif.Spec.Central
import Verif.Lemmas.Isolated

/-! # Stacking and splitting by blocks -/

namespace Ikf
open Mat

section offsets
variable {bs : List (ℕ × ℕ)}

theorem off_add_le {p : ℕ × ℕ} (hn : (bs.map (·.1)).Nodup) (hp : p ∈ bs) : off bs p.1 + p.2 ≤ tot bs := by
  induction bs with
  | nil => simp at hp
  | cons b r ih =>
    simp only [List.map_cons, List.nodup_cons, List.mem_map] at hn
    simp only [off, tot]
    rcases List.mem_cons.mp hp with rfl | hp
    · simp
    · by_cases h : b.1 = p.1
      · exact absurd ⟨p, hp, h.symm⟩ hn.1
      · rw [if_neg h]; have := ih hn.2 hp; omega

/-- Blocks do not overlap. -/
theorem off_disjoint {p q : ℕ × ℕ} (hn : (bs.map (·.1)).Nodup) (hp : p ∈ bs) (hq : q ∈ bs) {i j : ℕ} (hi : i < p.2) (hj : j < q.2)
    (h : off bs p.1 + i = off bs q.1 + j) : p = q ∧ i = j := by
  induction bs with
  | nil => simp at hp
  | cons b r ih =>
    simp only [List.map_cons, List.nodup_cons, List.mem_map] at hn
    simp only [off] at h
    rcases List.mem_cons.mp hp with rfl | hp
    · rw [if_pos rfl] at h
      rcases List.mem_cons.mp hq with rfl | hq
      · rw [if_pos rfl] at h; exact ⟨rfl, by omega⟩
      · by_cases h' : p.1 = q.1
        · exact absurd ⟨q, hq, h'.symm⟩ hn.1
        · rw [if_neg h'] at h; omega
    · by_cases h' : b.1 = p.1
      · exact absurd ⟨p, hp, h'.symm⟩ hn.1
      · rw [if_neg h'] at h
        rcases List.mem_cons.mp hq with rfl | hq
        · rw [if_pos rfl] at h; omega
        · by_cases h'' : b.1 = q.1
          · exact absurd ⟨q, hq, h''.symm⟩ hn.1
          · rw [if_neg h''] at h
            exact ih hn.2 hp hq (by omega)

/-- Every row of the stack belongs to a block. -/
theorem off_cover (hn : (bs.map (·.1)).Nodup) {k : ℕ} (hk : k < tot bs) : ∃ p ∈ bs, ∃ i < p.2, k = off bs p.1 + i := by
  induction bs generalizing k with
  | nil => simp [tot] at hk
  | cons b r ih =>
    simp only [List.map_cons, List.nodup_cons, List.mem_map] at hn
    simp only [tot] at hk
    by_cases h : k < b.2
    · exact ⟨b, List.mem_cons_self, k, h, by simp [off]⟩
    · obtain ⟨p, hp, i, hi, he⟩ := ih hn.2 (k := k - b.2) (by omega)
      refine ⟨p, List.mem_cons_of_mem _ hp, i, hi, ?_⟩
      have h' : b.1 ≠ p.1 := fun h' => hn.1 ⟨p, hp, h'.symm⟩
      simp only [off]; rw [if_neg h']; omega

theorem off_append (l : List (ℕ × ℕ)) (b : ℕ × ℕ) (r) (h : b.1 ∉ l.map (·.1)) : off (l ++ b :: r) b.1 = tot l := by
  induction l with
  | nil => simp [off, tot]
  | cons a l ih =>
    simp only [List.map_cons, List.mem_cons, not_or] at h
    simp only [List.cons_append, off, tot]
    rw [if_neg (fun hh => h.1 hh.symm), ih h.2]

theorem tot_append (l r : List (ℕ × ℕ)) : tot (l ++ r) = tot l + tot r := by
  induction l with
  | nil => simp [tot]
  | cons a l ih => simp only [List.cons_append, tot, ih]; omega

theorem lookup_of_mem {p : ℕ × ℕ} (hn : (bs.map (·.1)).Nodup) (hp : p ∈ bs) : bs.lookup p.1 = some p.2 := by
  induction bs with
  | nil => simp at hp
  | cons b r ih =>
    simp only [List.map_cons, List.nodup_cons, List.mem_map] at hn
    rcases List.mem_cons.mp hp with rfl | hp
    · simp [List.lookup]
    · have h' : p.1 ≠ b.1 := fun h' => hn.1 ⟨p, hp, h'⟩
      have := ih hn.2 hp
      rw [List.lookup, beq_eq_false_iff_ne.mpr h']
      exact this

end offsets

/-! ## Writing a block -/

theorem Mat.setBlock_e {A B : Mat} {i0 j0 : ℕ} (hr : i0 + B.rows ≤ A.rows) (hc : j0 + B.cols ≤ A.cols) (i j : ℕ) :
    (A.setBlock i0 j0 B).e i j =
      if i0 ≤ i ∧ i < i0 + B.rows ∧ j0 ≤ j ∧ j < j0 + B.cols then B.e (i - i0) (j - j0) else A.e i j := by
  unfold Mat.setBlock
  rw [of_e]
  by_cases h : i < A.rows ∧ j < A.cols
  · rw [if_pos h]
  · rw [if_neg h, if_neg (by omega), A.out i j (by omega)]

/-- Writing the block (a, b) leaves the other blocks alone. -/
theorem setBlock_block {bs : List (ℕ × ℕ)} (hn : (bs.map (·.1)).Nodup) {M X : Mat} (hM : M.Shape (tot bs) (tot bs)) {a b p q : ℕ × ℕ}
    (ha : a ∈ bs) (hb : b ∈ bs) (hp : p ∈ bs) (hq : q ∈ bs) (hX : X.Shape a.2 b.2) {i j : ℕ} (hi : i < p.2) (hj : j < q.2) :
    (M.setBlock (off bs a.1) (off bs b.1) X).e (off bs p.1 + i) (off bs q.1 + j) =
      if p = a ∧ q = b then X.e i j else M.e (off bs p.1 + i) (off bs q.1 + j) := by
  have h1 := off_add_le hn ha
  have h2 := off_add_le hn hb
  rw [setBlock_e (by rw [hX.1, hM.1]; exact h1) (by rw [hX.2, hM.2]; exact h2), hX.1, hX.2]
  by_cases h : p = a ∧ q = b
  · obtain ⟨rfl, rfl⟩ := h
    rw [if_pos (by omega), if_pos ⟨rfl, rfl⟩]
    congr 1 <;> omega
  · rw [if_neg h, if_neg]
    rintro ⟨x1, x2, x3, x4⟩
    apply h
    obtain ⟨e1, -⟩ := off_disjoint hn hp ha hi (j := off bs p.1 + i - off bs a.1) (by omega) (by omega)
    obtain ⟨e2, -⟩ := off_disjoint hn hq hb hj (j := off bs q.1 + j - off bs b.1) (by omega) (by omega)
    exact ⟨e1, e2⟩

/-- Two stacks with the same blocks are equal. -/
theorem stacked_unique {bs : List (ℕ × ℕ)} (hn : (bs.map (·.1)).Nodup) {cov : ℕ → ℕ → Mat} {S T : Mat}
    (hS : StackedCov bs cov S) (hT : StackedCov bs cov T) : S = T := by
  refine Mat.ext' (by rw [hS.1.1, hT.1.1]) (by rw [hS.1.2, hT.1.2]) ?_
  intro i j hi hj
  rw [hS.1.1] at hi; rw [hS.1.2] at hj
  obtain ⟨p, hp, i', hi', rfl⟩ := off_cover hn hi
  obtain ⟨q, hq, j', hj', rfl⟩ := off_cover hn hj
  rw [hS.2 p hp q hq i' hi' j' hj', hT.2 p hp q hq i' hi' j' hj']

theorem stackedMean_unique {bs : List (ℕ × ℕ)} (hn : (bs.map (·.1)).Nodup) {mu : ℕ → Mat} {S T : Mat}
    (hS : StackedMean bs mu S) (hT : StackedMean bs mu T) : S = T := by
  refine Mat.ext' (by rw [hS.1.1, hT.1.1]) (by rw [hS.1.2, hT.1.2]) ?_
  intro i j hi hj
  rw [hS.1.1] at hi; rw [hS.1.2] at hj
  obtain ⟨p, hp, i', hi', rfl⟩ := off_cover hn hi
  have : j = 0 := by omega
  subst this
  rw [hS.2 p hp i' hi', hT.2 p hp i' hi']

namespace Hdl

/-! ## stack_H -/

/-- The (ID, columns) list of the Jacobians. -/
abbrev hcols (d : SMap Mat) : List (ℕ × ℕ) := d.map fun e => (e.1, e.2.cols)

theorem dimsH_fst (d : SMap Mat) (a : ℕ × ℕ) : (dimsH d a).1 = a.1 + tot (hcols d) := by
  induction d generalizing a with
  | nil => simp [dimsH, tot]
  | cons e r ih => simp only [dimsH, ih, hcols, List.map_cons, tot]; omega

theorem stackHLoop_spec (m : ℕ) (r l : SMap Mat) (H G : Mat) (hn : ((l ++ r).map (·.1)).Nodup)
    (hH : H.Shape m (tot (hcols (l ++ r))))
    (hl : ∀ e ∈ l, e.2.rows = m ∧ ∀ i, ∀ j < e.2.cols, H.e i (off (hcols (l ++ r)) e.1 + j) = e.2.e i j)
    (h : stackHLoop m r (tot (hcols l)) H = .ok G) :
    G.Shape m (tot (hcols (l ++ r))) ∧
      ∀ e ∈ l ++ r, e.2.rows = m ∧ ∀ i, ∀ j < e.2.cols, G.e i (off (hcols (l ++ r)) e.1 + j) = e.2.e i j := by
  induction r generalizing l H with
  | nil =>
    simp only [stackHLoop, Res.ok.injEq] at h
    subst h
    refine ⟨hH, fun e he => hl e (by simpa using he)⟩
  | cons e r ih =>
    have hn' : ((hcols (l ++ e :: r)).map (·.1)).Nodup := by
      have : (hcols (l ++ e :: r)).map (·.1) = (l ++ e :: r).map (·.1) := by
        simp only [hcols, List.map_map]; rfl
      rw [this]; exact hn
    have hmem : (e.1, e.2.cols) ∈ hcols (l ++ e :: r) := List.mem_map.mpr ⟨e, by simp, rfl⟩
    have hoff : off (hcols (l ++ e :: r)) e.1 = tot (hcols l) := by
      have h1 : e.1 ∉ (hcols l).map (·.1) := by
        simp only [List.map_append, List.map_cons, List.nodup_append, List.nodup_cons, List.mem_map, List.mem_cons] at hn
        simp only [hcols, List.map_map, List.mem_map]
        rintro ⟨x, hx, hxe⟩
        exact hn.2.2 x.1 ⟨x, hx, rfl⟩ e.1 (Or.inl rfl) hxe
      have := off_append (hcols l) (e.1, e.2.cols) (hcols r) h1
      simpa [hcols] using this
    have hle := off_add_le hn' hmem
    simp only at hle
    unfold stackHLoop at h
    unfold Mat.setBlockC at h
    split at h
    · rename_i hd
      rw [Res.bind_ok] at h
      have htot : tot (hcols l) + e.2.cols = tot (hcols (l ++ [e])) := by
        simp [hcols, tot_append, tot]
      rw [htot] at h
      have happ : l ++ e :: r = (l ++ [e]) ++ r := by simp
      rw [happ] at hn hH hl hn' hmem hoff hle ⊢
      refine ih (l ++ [e]) (H.setBlock 0 (tot (hcols l)) e.2) hn hH ?_ h
      intro x hx
      have hxm : x ∈ (l ++ [e]) ++ r := List.mem_append_left _ hx
      classical
      have hset : ∀ i, ∀ j < x.2.cols,
          (H.setBlock 0 (tot (hcols l)) e.2).e i (off (hcols ((l ++ [e]) ++ r)) x.1 + j) =
            if x = e then e.2.e i j else H.e i (off (hcols ((l ++ [e]) ++ r)) x.1 + j) := by
        intro i j hj
        rw [setBlock_e (by omega) (by omega)]
        by_cases hxe : x = e
        · subst hxe
          rw [if_pos rfl]
          by_cases hi : i < x.2.rows
          · rw [if_pos (by omega)]
            congr 1
            omega
          · rw [if_neg (by omega), x.2.out i j (by omega), H.out i _ (by rw [hH.1]; omega)]
        · rw [if_neg hxe, if_neg]
          rintro ⟨x1, x2, x3, x4⟩
          apply hxe
          have hxm' : (x.1, x.2.cols) ∈ hcols ((l ++ [e]) ++ r) := List.mem_map.mpr ⟨x, hxm, rfl⟩
          obtain ⟨e1, -⟩ := off_disjoint hn' hxm' hmem hj (j := off (hcols ((l ++ [e]) ++ r)) x.1 + j - tot (hcols l)) (by omega)
            (by simp only; omega)
          have hk : x.1 = e.1 := (Prod.mk.inj e1).1
          have := List.inj_on_of_nodup_map hn hxm (by simp) hk
          exact this
      rcases List.mem_append.mp hx with hxl | hxe
      · refine ⟨(hl x hxl).1, fun i j hj => ?_⟩
        rw [hset i j hj]
        split
        · rename_i hxe; rw [hxe]
        · exact (hl x hxl).2 i j hj
      · simp only [List.mem_singleton] at hxe
        refine ⟨by rw [hxe]; exact hd.2.2.1, fun i j hj => ?_⟩
        rw [hset i j hj, if_pos hxe, hxe]
    · simp at h

theorem stackH_spec (d : SMap Mat) (hd : d.Sorted) (H : Mat) (h : stackH d = .ok H) : SideBySide d H := by
  unfold stackH at h
  simp only at h
  have hn : (d.map (·.1)).Nodup := ((SMap.sorted_iff_keys d).mp hd).imp (fun h => Nat.ne_of_lt h)
  have := stackHLoop_spec (dimsH d (0, 0)).2 d [] (Mat.zero (dimsH d (0, 0)).2 (dimsH d (0, 0)).1) H (by simpa using hn)
    ⟨rfl, by rw [zero_cols, dimsH_fst]; simp⟩ (by simp) h
  simp only [List.nil_append] at this
  refine ⟨this.1.2, fun e he => ⟨?_, (this.2 e he).2⟩⟩
  rw [(this.2 e he).1, this.1.1]

/-! ## Fixed beliefs are skipped -/

theorem getDim_foldl (d : SMap Belief) (a : ℕ) :
    d.foldl (fun a e => if !e.2.fixed then a + e.2.dim else a) a = a + getDim d := by
  unfold getDim
  induction d generalizing a with
  | nil => simp
  | cons e r ih =>
    simp only [List.foldl_cons]
    rw [ih, ih (if (!e.2.fixed) = true then 0 + e.2.dim else 0)]
    split <;> omega

theorem getDim_cons (e : ℕ × Belief) (r : SMap Belief) :
    getDim (e :: r) = (if !e.2.fixed then e.2.dim else 0) + getDim r := by
  conv_lhs => unfold getDim
  rw [List.foldl_cons, getDim_foldl]
  split <;> simp

theorem unfixed_cons_pos (e : ℕ × Belief) (r : SMap Belief) (h : e.2.fixed = false) : unfixed (e :: r) = e :: unfixed r := by
  unfold unfixed; simp [h]

theorem unfixed_cons_neg (e : ℕ × Belief) (r : SMap Belief) (h : e.2.fixed = true) : unfixed (e :: r) = unfixed r := by
  unfold unfixed; simp [h]

/-- The (ID, size) list of the beliefs. -/
abbrev bdims (d : SMap Belief) : List (ℕ × ℕ) := d.map fun e => (e.1, e.2.dim)

theorem getDim_eq (d : SMap Belief) : getDim d = tot (bdims (unfixed d)) := by
  induction d with
  | nil => rfl
  | cons e r ih =>
    rw [getDim_cons, ih]
    cases h : e.2.fixed with
    | true => rw [unfixed_cons_neg e r h]; simp
    | false => rw [unfixed_cons_pos e r h]; simp [bdims, tot]

theorem unfixed_unfixed (d : SMap Belief) : unfixed (unfixed d) = unfixed d := by
  unfold unfixed; simp [List.filter_filter]

theorem mem_unfixed {d : SMap Belief} {e} : e ∈ unfixed d ↔ e ∈ d ∧ e.2.fixed = false := by
  unfold unfixed; simp [List.mem_filter]

theorem stackMeanLoop_unfixed (d : SMap Belief) (row : ℕ) (m : Mat) :
    stackMeanLoop d row m = stackMeanLoop (unfixed d) row m := by
  induction d generalizing row m with
  | nil => rfl
  | cons e r ih =>
    cases h : e.2.fixed with
    | true => rw [unfixed_cons_neg e r h, ← ih]; simp [stackMeanLoop, h]
    | false => rw [unfixed_cons_pos e r h]; simp only [stackMeanLoop, h, ih]

theorem stackRow_unfixed (h : Hdl) (t : Int) (a : ℕ × Belief) (row : ℕ) (d : SMap Belief) (col : ℕ) (M : Mat) :
    stackRow h t a row d col M = stackRow h t a row (unfixed d) col M := by
  induction d generalizing col M with
  | nil => rfl
  | cons e r ih =>
    cases hf : e.2.fixed with
    | true => rw [unfixed_cons_neg e r hf, ← ih]; simp [stackRow, hf]
    | false => rw [unfixed_cons_pos e r hf]; simp only [stackRow, hf, ih]

theorem stackRows_unfixed (h : Hdl) (t : Int) (d0 d : SMap Belief) (row : ℕ) (M : Mat) :
    stackRows h t d0 d row M = stackRows h t (unfixed d0) (unfixed d) row M := by
  induction d generalizing row M with
  | nil => rfl
  | cons e r ih =>
    cases hf : e.2.fixed with
    | true => rw [unfixed_cons_neg e r hf, ← ih]; simp [stackRows, hf]
    | false => rw [unfixed_cons_pos e r hf]; simp only [stackRows, hf, ih, stackRow_unfixed h t e row d0]

theorem applyCorrections_unfixed (P : Mat) (t : Int) (d : SMap Belief) (row : ℕ) (h : Hdl) :
    applyCorrections P t d row h = applyCorrections P t (unfixed d) row h := by
  induction d generalizing row h with
  | nil => rfl
  | cons e r ih =>
    cases hf : e.2.fixed with
    | true => rw [unfixed_cons_neg e r hf, ← ih]; simp [applyCorrections, hf]
    | false => rw [unfixed_cons_pos e r hf]; simp only [applyCorrections, hf, ih]

theorem correctBeliefs_unfixed (P dx : Mat) (t : Int) (d : SMap Belief) (row : ℕ) (h : Hdl) :
    correctBeliefs P dx t d row h = correctBeliefs P dx t (unfixed d) row h := by
  induction d generalizing row h with
  | nil => rfl
  | cons e r ih =>
    cases hf : e.2.fixed with
    | true => rw [unfixed_cons_neg e r hf, ← ih]; simp [correctBeliefs, hf]
    | false => rw [unfixed_cons_pos e r hf]; simp only [correctBeliefs, hf, ih]

theorem stackMean_unfixed (d : SMap Belief) : stackMean d = stackMean (unfixed d) := by
  unfold stackMean; rw [stackMeanLoop_unfixed, getDim_eq, getDim_eq, unfixed_unfixed]

theorem stackSigma_unfixed (h : Hdl) (d : SMap Belief) (t : Int) : stackSigma h d t = stackSigma h (unfixed d) t := by
  unfold stackSigma
  rw [stackRows_unfixed, stackRows_unfixed h t (unfixed d), getDim_eq, getDim_eq, unfixed_unfixed]

theorem commit_unfixed (h : Hdl) (d : SMap Belief) (P dx : Mat) (t : Int) : commit h d P dx t = commit h (unfixed d) P dx t := by
  unfold commit splitRightUpper
  rw [applyCorrections_unfixed, unfixed_unfixed]
  simp only [correctBeliefs_unfixed P dx t d]

/-! ## stack_mean -/

theorem bdims_keys (d : SMap Belief) : (bdims d).map (·.1) = d.map (·.1) := by
  simp only [bdims, List.map_map]; rfl

theorem off_bdims (l : SMap Belief) (e : ℕ × Belief) (r : SMap Belief) (hn : ((l ++ e :: r).map (·.1)).Nodup) :
    off (bdims (l ++ e :: r)) e.1 = tot (bdims l) := by
  have h1 : e.1 ∉ (bdims l).map (·.1) := by
    rw [bdims_keys]
    simp only [List.map_append, List.map_cons, List.nodup_append, List.nodup_cons, List.mem_map, List.mem_cons] at hn
    simp only [List.mem_map]
    rintro ⟨x, hx, hxe⟩
    exact hn.2.2 x.1 ⟨x, hx, rfl⟩ e.1 (Or.inl rfl) hxe
  have := off_append (bdims l) (e.1, e.2.dim) (bdims r) h1
  simpa [bdims] using this

theorem tot_bdims_snoc (l : SMap Belief) (e : ℕ × Belief) : tot (bdims l) + e.2.dim = tot (bdims (l ++ [e])) := by
  simp [bdims, tot_append, tot]

theorem stackMeanLoop_spec (r l : SMap Belief) (m : Mat) (hn : ((l ++ r).map (·.1)).Nodup)
    (hu : ∀ e ∈ r, e.2.fixed = false) (hs : ∀ e ∈ r, e.2.mean.Shape e.2.dim 1)
    (hm : m.Shape (tot (bdims (l ++ r))) 1)
    (hl : ∀ e ∈ l, ∀ i < e.2.dim, m.e (off (bdims (l ++ r)) e.1 + i) 0 = e.2.mean.e i 0) :
    ∃ m', stackMeanLoop r (tot (bdims l)) m = .ok m' ∧ m'.Shape (tot (bdims (l ++ r))) 1 ∧
      ∀ e ∈ l ++ r, ∀ i < e.2.dim, m'.e (off (bdims (l ++ r)) e.1 + i) 0 = e.2.mean.e i 0 := by
  induction r generalizing l m with
  | nil => exact ⟨m, rfl, hm, fun e he => hl e (by simpa using he)⟩
  | cons e r ih =>
    have hoff := off_bdims l e r hn
    have hn' : ((bdims (l ++ e :: r)).map (·.1)).Nodup := by rw [bdims_keys]; exact hn
    have hmem : (e.1, e.2.dim) ∈ bdims (l ++ e :: r) := List.mem_map.mpr ⟨e, by simp, rfl⟩
    have hle := off_add_le hn' hmem
    simp only at hle
    have hse := hs e List.mem_cons_self
    unfold stackMeanLoop
    rw [hu e List.mem_cons_self]
    simp only [Bool.not_false, if_true]
    rw [setBlockC_ok (by rw [hm.1]; omega) (by rw [hm.2]) hse.1 hse.2, Res.bind_ok, tot_bdims_snoc]
    have happ : l ++ e :: r = (l ++ [e]) ++ r := by simp
    rw [happ] at hn hm hl hn' hmem hoff hle ⊢
    refine ih (l ++ [e]) _ hn (fun x hx => hu x (List.mem_cons_of_mem _ hx)) (fun x hx => hs x (List.mem_cons_of_mem _ hx)) hm ?_
    intro x hx i hi
    have hxm : x ∈ (l ++ [e]) ++ r := List.mem_append_left _ hx
    rw [setBlock_e (by rw [hse.1, hm.1]; omega) (by rw [hse.2, hm.2])]
    by_cases hxe : x = e
    · subst hxe
      rw [if_pos (by rw [hse.1, hse.2]; omega)]
      congr 1
      omega
    · rw [if_neg]
      · rcases List.mem_append.mp hx with hxl | hx'
        · exact hl x hxl i hi
        · simp only [List.mem_singleton] at hx'; exact absurd hx' hxe
      · rintro ⟨x1, x2, x3, x4⟩
        apply hxe
        rw [hse.1] at x2
        have hxm' : (x.1, x.2.dim) ∈ bdims ((l ++ [e]) ++ r) := List.mem_map.mpr ⟨x, hxm, rfl⟩
        obtain ⟨e1, -⟩ := off_disjoint hn' hxm' hmem hi (j := off (bdims ((l ++ [e]) ++ r)) x.1 + i - tot (bdims l)) (by omega)
          (by simp only; omega)
        exact List.inj_on_of_nodup_map hn hxm (by simp) (Prod.mk.inj e1).1

theorem Sorted.nodup {V : Type _} {d : SMap V} (hd : d.Sorted) : (d.map (·.1)).Nodup :=
  ((SMap.sorted_iff_keys d).mp hd).imp (fun h => Nat.ne_of_lt h)

theorem unfixed_sorted {d : SMap Belief} (hd : d.Sorted) : (unfixed d).Sorted := List.Pairwise.filter _ hd

/-- `stack_mean` puts the means of the unfixed beliefs below each other. -/
theorem stackMean_spec (d : SMap Belief) (hd : d.Sorted) (mu : ℕ → Mat) (hmu : ∀ e ∈ unfixed d, e.2.mean = mu e.1)
    (hs : ∀ e ∈ unfixed d, e.2.mean.Shape e.2.dim 1) :
    ∃ m, stackMean d = .ok m ∧ StackedMean (bdims (unfixed d)) mu m := by
  rw [stackMean_unfixed]
  unfold stackMean
  rw [getDim_eq, unfixed_unfixed]
  obtain ⟨m, h1, h2, h3⟩ := stackMeanLoop_spec (unfixed d) [] (Mat.zero (tot (bdims (unfixed d))) 1)
    (by simpa using Sorted.nodup (unfixed_sorted hd)) (fun e he => (mem_unfixed.mp he).2) hs ⟨rfl, rfl⟩ (by simp)
  refine ⟨m, h1, h2, ?_⟩
  intro p hp i hi
  obtain ⟨e, he, rfl⟩ := List.mem_map.mp hp
  rw [← hmu e he]
  exact h3 e he i hi

/-! ## stack_Sigma -/

open Classical in
/-- The blocks in `T` have been written, the others are zero. -/
structure Filled (bs : List (ℕ × ℕ)) (C : ℕ → ℕ → Mat) (T : ℕ → ℕ → Prop) (M : Mat) : Prop where
  shape : M.Shape (tot bs) (tot bs)
  blk : ∀ p ∈ bs, ∀ q ∈ bs, ∀ i < p.2, ∀ j < q.2,
    M.e (off bs p.1 + i) (off bs q.1 + j) = if T p.1 q.1 then (C p.1 q.1).e i j else 0

open Classical in
theorem Filled.congr {bs C T T' M} (h : Filled bs C T M) (hT : ∀ p ∈ bs, ∀ q ∈ bs, (T p.1 q.1 ↔ T' p.1 q.1)) : Filled bs C T' M :=
  ⟨h.shape, fun p hp q hq i hi j hj => by
    rw [h.blk p hp q hq i hi j hj]; exact if_congr (hT p hp q hq) rfl rfl⟩

open Classical in
theorem Filled.set {bs C T M} (hn : (bs.map (·.1)).Nodup) (h : Filled bs C T M) {a b : ℕ × ℕ} (ha : a ∈ bs) (hb : b ∈ bs)
    (hC : (C a.1 b.1).Shape a.2 b.2) :
    M.setBlockC (off bs a.1) (off bs b.1) a.2 b.2 (C a.1 b.1) = .ok (M.setBlock (off bs a.1) (off bs b.1) (C a.1 b.1)) ∧
    Filled bs C (fun p q => T p q ∨ (p = a.1 ∧ q = b.1)) (M.setBlock (off bs a.1) (off bs b.1) (C a.1 b.1)) := by
  have h1 := off_add_le hn ha
  have h2 := off_add_le hn hb
  refine ⟨setBlockC_ok (by rw [h.shape.1]; exact h1) (by rw [h.shape.2]; exact h2) hC.1 hC.2, ⟨h.shape, ?_⟩⟩
  intro p hp q hq i hi j hj
  rw [setBlock_block hn h.shape ha hb hp hq hC hi hj, h.blk p hp q hq i hi j hj]
  by_cases hpq : p = a ∧ q = b
  · obtain ⟨rfl, rfl⟩ := hpq
    rw [if_pos ⟨rfl, rfl⟩, if_pos (Or.inr ⟨rfl, rfl⟩)]
  · rw [if_neg hpq]
    have : ¬ (p.1 = a.1 ∧ q.1 = b.1) := by
      rintro ⟨e1, e2⟩
      exact hpq ⟨List.inj_on_of_nodup_map hn hp ha e1, List.inj_on_of_nodup_map hn hq hb e2⟩
    by_cases hT : T p.1 q.1
    · rw [if_pos hT, if_pos (Or.inl hT)]
    · rw [if_neg hT, if_neg (fun h => h.elim hT this)]

open Classical in
theorem Filled.skip {bs C T M} (h : Filled bs C T M) {a b : ℕ} (hC : ∀ i j, (C a b).e i j = 0) :
    Filled bs C (fun p q => T p q ∨ (p = a ∧ q = b)) M := by
  refine ⟨h.shape, ?_⟩
  intro p hp q hq i hi j hj
  rw [h.blk p hp q hq i hi j hj]
  by_cases hpq : p.1 = a ∧ q.1 = b
  · obtain ⟨e1, e2⟩ := hpq
    rw [e1, e2, hC, ite_self, ite_self]
  · by_cases hT : T p.1 q.1
    · rw [if_pos hT, if_pos (Or.inl hT)]
    · rw [if_neg hT, if_neg (fun h => h.elim hT hpq)]

/-- What the stacked blocks are. -/
structure CovOf (h : Hdl) (t : Int) (d : SMap Belief) (C : ℕ → ℕ → Mat) : Prop where
  own : ∀ e ∈ d, e.2.Sigma = C e.1 e.1
  shape : ∀ a ∈ d, ∀ b ∈ d, (C a.1 b.1).Shape a.2.dim b.2.dim
  symm : ∀ a ∈ d, ∀ b ∈ d, C b.1 a.1 = (C a.1 b.1).tr
  cross : ∀ a ∈ d, ∀ b ∈ d, a.1 < b.1 → ∃ X, getSigma h a.1 b.1 t = .ok X ∧
    ((X.size ≠ 0 ∧ X = C a.1 b.1) ∨ (X.size = 0 ∧ ∀ i j, (C a.1 b.1).e i j = 0))

theorem stackRow_spec {h : Hdl} {t : Int} {D : SMap Belief} {C : ℕ → ℕ → Mat} (hD : (D.map (·.1)).Nodup) (hC : CovOf h t D C)
    (hu : ∀ e ∈ D, e.2.fixed = false) {a : ℕ × Belief} (ha : a ∈ D) (r l : SMap Belief) (hlr : l ++ r = D)
    (T : ℕ → ℕ → Prop) (M : Mat) (hM : Filled (bdims D) C T M) :
    ∃ M', stackRow h t a (off (bdims D) a.1) r (tot (bdims l)) M = .ok M' ∧
      Filled (bdims D) C (fun p q => T p q ∨ (a.1 ≤ q ∧ p = a.1 ∧ q ∈ r.map (·.1)) ∨ (a.1 ≤ p ∧ q = a.1 ∧ p ∈ r.map (·.1))) M' := by
  induction r generalizing l T M with
  | nil => exact ⟨M, rfl, hM.congr (by simp)⟩
  | cons b r ih =>
    have hb : b ∈ D := by rw [← hlr]; simp
    have hn' : ((bdims D).map (·.1)).Nodup := by rw [bdims_keys]; exact hD
    have hoff : off (bdims D) b.1 = tot (bdims l) := by rw [← hlr]; exact off_bdims l b r (by rw [hlr]; exact hD)
    have ham : (a.1, a.2.dim) ∈ bdims D := List.mem_map.mpr ⟨a, ha, rfl⟩
    have hbm : (b.1, b.2.dim) ∈ bdims D := List.mem_map.mpr ⟨b, hb, rfl⟩
    have hlr' : (l ++ [b]) ++ r = D := by rw [← hlr]; simp
    unfold stackRow
    rw [hu b hb]
    simp only [Bool.not_false, if_true]
    rw [tot_bdims_snoc, ← hoff]
    have fin : ∀ T' M1, Filled (bdims D) C T' M1 →
        (∀ p q, T' p q ↔ T p q ∨ (a.1 ≤ b.1 ∧ ((p = a.1 ∧ q = b.1) ∨ (p = b.1 ∧ q = a.1)))) →
        ∃ M', stackRow h t a (off (bdims D) a.1) r (tot (bdims (l ++ [b]))) M1 = .ok M' ∧
          Filled (bdims D) C (fun p q => T p q ∨ (a.1 ≤ q ∧ p = a.1 ∧ q ∈ (b :: r).map (·.1)) ∨
            (a.1 ≤ p ∧ q = a.1 ∧ p ∈ (b :: r).map (·.1))) M' := by
      intro T' M1 hM1 hT'
      obtain ⟨M', h1, h2⟩ := ih (l ++ [b]) hlr' T' M1 hM1
      refine ⟨M', h1, h2.congr ?_⟩
      intro p _ q _
      simp only [hT', List.map_cons, List.mem_cons]
      constructor
      · rintro ((h | ⟨h, ⟨e1, e2⟩ | ⟨e1, e2⟩⟩) | h | h)
        · exact Or.inl h
        · exact Or.inr (Or.inl ⟨by omega, e1, Or.inl e2⟩)
        · exact Or.inr (Or.inr ⟨by omega, e2, Or.inl e1⟩)
        · exact Or.inr (Or.inl ⟨h.1, h.2.1, Or.inr h.2.2⟩)
        · exact Or.inr (Or.inr ⟨h.1, h.2.1, Or.inr h.2.2⟩)
      · rintro (h | ⟨h, h1, h2 | h2⟩ | ⟨h, h1, h2 | h2⟩)
        · exact Or.inl (Or.inl h)
        · exact Or.inl (Or.inr ⟨by omega, Or.inl ⟨h1, h2⟩⟩)
        · exact Or.inr (Or.inl ⟨h, h1, h2⟩)
        · exact Or.inl (Or.inr ⟨by omega, Or.inr ⟨h2, h1⟩⟩)
        · exact Or.inr (Or.inr ⟨h, h1, h2⟩)
    by_cases hab : a.1 = b.1
    · have hab' : a = b := List.inj_on_of_nodup_map hD ha hb hab
      subst hab'
      rw [if_pos rfl]
      obtain ⟨h1, h2⟩ := hM.set hn' ham ham (hC.shape a ha a ha)
      rw [hC.own a ha]
      simp only at h1
      rw [h1, Res.bind_ok]
      exact fin _ _ h2 (fun p q => by simp)
    · rw [if_neg hab]
      by_cases hlt : a.1 < b.1
      · rw [if_pos hlt]
        obtain ⟨X, hX, hcase⟩ := hC.cross a ha b hb hlt
        rw [hX, Res.bind_ok]
        rcases hcase with ⟨hs, rfl⟩ | ⟨hs, hz⟩
        · rw [if_pos hs]
          obtain ⟨h1, h2⟩ := hM.set hn' ham hbm (hC.shape a ha b hb)
          simp only at h1
          rw [h1, Res.bind_ok]
          obtain ⟨h3, h4⟩ := h2.set hn' hbm ham (hC.shape b hb a ha)
          simp only at h3
          rw [← hC.symm a ha b hb, h3, Res.bind_ok]
          exact fin _ _ h4 (fun p q => by
            constructor
            · rintro ((h | h) | h)
              · exact Or.inl h
              · exact Or.inr ⟨hlt.le, Or.inl h⟩
              · exact Or.inr ⟨hlt.le, Or.inr h⟩
            · rintro (h | ⟨-, h | h⟩)
              · exact Or.inl (Or.inl h)
              · exact Or.inl (Or.inr h)
              · exact Or.inr h)
        · rw [if_neg (by simpa using hs), Res.bind_ok]
          have hz' : ∀ i j, (C b.1 a.1).e i j = 0 := by intro i j; rw [hC.symm a ha b hb]; exact hz j i
          exact fin _ _ ((hM.skip hz).skip hz') (fun p q => by
            constructor
            · rintro ((h | h) | h)
              · exact Or.inl h
              · exact Or.inr ⟨hlt.le, Or.inl h⟩
              · exact Or.inr ⟨hlt.le, Or.inr h⟩
            · rintro (h | ⟨-, h | h⟩)
              · exact Or.inl (Or.inl h)
              · exact Or.inl (Or.inr h)
              · exact Or.inr h)
      · rw [if_neg hlt, Res.bind_ok]
        exact fin T M hM (fun p q => ⟨Or.inl, by rintro (h | ⟨h, -⟩); exacts [h, absurd h (by omega)]⟩)

theorem stackRows_spec {h : Hdl} {t : Int} {D : SMap Belief} {C : ℕ → ℕ → Mat} (hD : (D.map (·.1)).Nodup) (hC : CovOf h t D C)
    (hu : ∀ e ∈ D, e.2.fixed = false) (r l : SMap Belief) (hlr : l ++ r = D) (T : ℕ → ℕ → Prop) (M : Mat) (hM : Filled (bdims D) C T M) :
    ∃ M', stackRows h t D r (tot (bdims l)) M = .ok M' ∧
      Filled (bdims D) C (fun p q => T p q ∨ (p ≤ q ∧ p ∈ r.map (·.1)) ∨ (q ≤ p ∧ q ∈ r.map (·.1))) M' := by
  induction r generalizing l T M with
  | nil => exact ⟨M, rfl, hM.congr (by simp)⟩
  | cons a r ih =>
    have ha : a ∈ D := by rw [← hlr]; simp
    have hoff : off (bdims D) a.1 = tot (bdims l) := by rw [← hlr]; exact off_bdims l a r (by rw [hlr]; exact hD)
    have hlr' : (l ++ [a]) ++ r = D := by rw [← hlr]; simp
    unfold stackRows
    rw [hu a ha]
    simp only [Bool.not_false, if_true]
    obtain ⟨M1, h1, h2⟩ := stackRow_spec hD hC hu ha D [] rfl T M hM
    simp only [List.map_nil, tot] at h1
    rw [← hoff, h1, Res.bind_ok, hoff, tot_bdims_snoc]
    obtain ⟨M', h3, h4⟩ := ih (l ++ [a]) hlr' _ M1 h2
    refine ⟨M', h3, h4.congr ?_⟩
    intro p hp q hq
    have hp' : p.1 ∈ D.map (·.1) := by rw [← bdims_keys]; exact List.mem_map_of_mem hp
    have hq' : q.1 ∈ D.map (·.1) := by rw [← bdims_keys]; exact List.mem_map_of_mem hq
    simp only [List.map_cons, List.mem_cons]
    constructor
    · rintro ((h | ⟨h1, h2, -⟩ | ⟨h1, h2, -⟩) | h | h)
      · exact Or.inl h
      · exact Or.inr (Or.inl ⟨by omega, Or.inl h2⟩)
      · exact Or.inr (Or.inr ⟨by omega, Or.inl h2⟩)
      · exact Or.inr (Or.inl ⟨h.1, Or.inr h.2⟩)
      · exact Or.inr (Or.inr ⟨h.1, Or.inr h.2⟩)
    · rintro (h | ⟨h1, h2 | h2⟩ | ⟨h1, h2 | h2⟩)
      · exact Or.inl (Or.inl h)
      · exact Or.inl (Or.inr (Or.inl ⟨by omega, h2, hq'⟩))
      · exact Or.inr (Or.inl ⟨h1, h2⟩)
      · exact Or.inl (Or.inr (Or.inr ⟨by omega, h2, hp'⟩))
      · exact Or.inr (Or.inr ⟨h1, h2⟩)

/-- Symmetrising a stack of symmetric blocks changes nothing. -/
theorem symM_stacked {bs : List (ℕ × ℕ)} (hn : (bs.map (·.1)).Nodup) {C : ℕ → ℕ → Mat} {S : Mat} (hS : StackedCov bs C S)
    (hsym : ∀ p ∈ bs, ∀ q ∈ bs, C q.1 p.1 = (C p.1 q.1).tr) : symM S = S := by
  apply toM_inj (n := tot bs) (m := tot bs) hS.1.symM.1 hS.1.symM.2 hS.1.1 hS.1.2
  rw [toM_symM_symm hS.1]
  ext i j
  simp only [Matrix.transpose_apply, toM_apply]
  obtain ⟨p, hp, i', hi', he1⟩ := off_cover hn i.2
  obtain ⟨q, hq, j', hj', he2⟩ := off_cover hn j.2
  rw [he1, he2, hS.2 p hp q hq i' hi' j' hj', hS.2 q hq p hp j' hj' i' hi', hsym p hp q hq]
  rfl

/-- `stack_Sigma` builds the covariance of the stacked unfixed beliefs. -/
theorem stackSigma_spec {h : Hdl} {t : Int} (d : SMap Belief) (hd : d.Sorted) {C : ℕ → ℕ → Mat} (hC : CovOf h t (unfixed d) C) :
    ∃ S, stackSigma h d t = .ok S ∧ StackedCov (bdims (unfixed d)) C S := by
  rw [stackSigma_unfixed]
  unfold stackSigma
  rw [getDim_eq, unfixed_unfixed]
  have hn := Sorted.nodup (unfixed_sorted hd)
  have hn' : ((bdims (unfixed d)).map (·.1)).Nodup := by rw [bdims_keys]; exact hn
  obtain ⟨M, h1, h2⟩ := stackRows_spec hn hC (fun e he => (mem_unfixed.mp he).2) (unfixed d) [] rfl (fun _ _ => False)
    (Mat.zero (tot (bdims (unfixed d))) (tot (bdims (unfixed d)))) ⟨⟨rfl, rfl⟩, fun p hp q hq i hi j hj => by rw [zero_e]; simp⟩
  simp only [List.map_nil, tot] at h1
  rw [h1, Res.bind_ok]
  have hSC : StackedCov (bdims (unfixed d)) C M := by
    refine ⟨h2.shape, fun p hp q hq i hi j hj => ?_⟩
    rw [h2.blk p hp q hq i hi j hj, if_pos]
    have hp' : p.1 ∈ (unfixed d).map (·.1) := by rw [← bdims_keys]; exact List.mem_map_of_mem hp
    have hq' : q.1 ∈ (unfixed d).map (·.1) := by rw [← bdims_keys]; exact List.mem_map_of_mem hq
    rcases le_total p.1 q.1 with hle | hle
    · exact Or.inr (Or.inl ⟨hle, hp'⟩)
    · exact Or.inr (Or.inr ⟨hle, hq'⟩)
  refine ⟨M, ?_, hSC⟩
  rw [symmetrize_ok hSC.1, symM_stacked hn' hSC]
  intro p hp q hq
  obtain ⟨a, ha, rfl⟩ := List.mem_map.mp hp
  obtain ⟨b, hb, rfl⟩ := List.mem_map.mp hq
  exact hC.symm a ha b hb

end Hdl
end Ikf
