import Verif.Model.Handler
import Verif.Props.MultiBuffer
import Verif.Props.Horizon
import Mathlib.Data.List.Perm.Basic
import Mathlib.Data.List.Count

/-! Lemmas about the stored measurement history of the handler. -/

namespace Ikf
variable {α P : Type _}

/-! ## Sorted buffers are determined by their per-key contents -/

theorem sorted_ext (a b : Buf α) (ha : a.SortedKeys) (hb : b.SortedKeys)
    (h : ∀ k, a.filter (fun e => e.1 == k) = b.filter (fun e => e.1 == k)) : a = b := by
  obtain ⟨h1, h2⟩ := Buf.foldl_setInsert a ha [] List.Pairwise.nil (by simp)
  have hkeys : ∀ e ∈ b, e.1 ∈ a.foldl (fun s e => Buf.setInsert s e.1) [] := by
    intro e he
    rw [h2]; right
    have : e ∈ b.filter (fun x => x.1 == e.1) := List.mem_filter.mpr ⟨he, by simp⟩
    rw [← h, List.mem_filter] at this
    exact ⟨e, this.1, rfl⟩
  have ga := Buf.flatMap_groups a ha _ h1 (fun e he => (h2 e.1).mpr (Or.inr ⟨e, he, rfl⟩))
  have gb := Buf.flatMap_groups b hb _ h1 hkeys
  rw [← ga, ← gb]
  apply List.flatMap_congr
  intro k _; exact h k

/-! ## Order specification -/

/-- Processing priority at equal times: propagation, private, joint; unknown types last. -/
def ObsType.prio : ObsType → Nat
  | .propagation => 0
  | .priv => 1
  | .joint => 2
  | .unknown => 3

/-- `a` is to be processed before (or may stay before) `b`. -/
def Meas.before (a b : Meas P) : Prop := a.t < b.t ∨ (a.t = b.t ∧ a.kind.prio ≤ b.kind.prio)

/-- Stored under their own time. -/
def Keyed (b : Buf (Meas P)) : Prop := ∀ e ∈ b, e.1 = e.2.t
/-- Only known observation types. -/
def Known (b : Buf (Meas P)) : Prop := ∀ e ∈ b, e.2.kind ≠ .unknown
/-- Sorted by time and priority. -/
def POrd (b : Buf (Meas P)) : Prop := b.Pairwise (fun x y => x.2.before y.2)
/-- The elements of one time and type, in stored order. -/
def cls (b : Buf (Meas P)) (k : Int) (K : ObsType) : Buf (Meas P) :=
  b.filter (fun e => e.1 == k && e.2.kind == K)

theorem Keyed.filter {b : Buf (Meas P)} (h : Keyed b) (p) : Keyed (b.filter p) :=
  fun e he => h e (List.mem_of_mem_filter he)
theorem Known.filter {b : Buf (Meas P)} (h : Known b) (p) : Known (b.filter p) :=
  fun e he => h e (List.mem_of_mem_filter he)
theorem POrd.filter {b : Buf (Meas P)} (h : POrd b) (p) : POrd (b.filter p) := List.Pairwise.filter p h

theorem POrd.sorted {b : Buf (Meas P)} (h : POrd b) (hk : Keyed b) : b.SortedKeys := by
  unfold POrd at h; unfold Buf.SortedKeys
  refine List.Pairwise.imp_of_mem ?_ h
  intro x y hx hy hb
  rw [hk x hx, hk y hy]
  rcases hb with h | h
  · exact h.le
  · exact h.1.le

theorem pord_of_groups (b : Buf (Meas P)) (hs : b.SortedKeys) (hk : Keyed b)
    (hg : ∀ k, (b.filter (fun e => e.1 == k)).Pairwise (fun x y => x.2.kind.prio ≤ y.2.kind.prio)) :
    POrd b := by
  induction b with
  | nil => exact List.Pairwise.nil
  | cons x r ih =>
    unfold Buf.SortedKeys at hs
    rw [List.pairwise_cons] at hs
    have hkr : Keyed r := fun e he => hk e (by simp [he])
    refine List.pairwise_cons.mpr ⟨?_, ih hs.2 hkr ?_⟩
    · intro y hy
      have hle := hs.1 y hy
      rw [hk x (by simp), hkr y hy] at hle
      rcases lt_or_eq_of_le hle with hlt | heq
      · left; exact hlt
      · right
        refine ⟨heq, ?_⟩
        have := hg x.1
        rw [List.filter_cons_of_pos (by simp), List.pairwise_cons] at this
        apply this.1 y
        rw [List.mem_filter]
        refine ⟨hy, ?_⟩
        rw [hkr y hy, hk x (by simp), heq]; simp
    · intro k
      have := hg k
      by_cases hx : x.1 = k
      · rw [List.filter_cons_of_pos (by simpa using hx), List.pairwise_cons] at this; exact this.2
      · rwa [List.filter_cons_of_neg (by simpa using hx)] at this

theorem groups_of_pord (b : Buf (Meas P)) (hk : Keyed b) (h : POrd b) (k : Int) :
    (b.filter (fun e => e.1 == k)).Pairwise (fun x y => x.2.kind.prio ≤ y.2.kind.prio) := by
  have h2 := h.filter (fun e => e.1 == k)
  refine List.Pairwise.imp_of_mem ?_ h2
  intro x y hx hy hb
  rw [List.mem_filter] at hx hy
  have ex : x.2.t = k := by rw [← hk x hx.1]; simpa using hx.2
  have ey : y.2.t = k := by rw [← hk y hy.1]; simpa using hy.2
  rcases hb with h | h
  · omega
  · exact h.2

/-- A priority-sorted group is the concatenation of its three classes. -/
theorem group_split (c : Buf (Meas P)) (hkn : Known c)
    (h : c.Pairwise (fun x y => x.2.kind.prio ≤ y.2.kind.prio)) :
    c = c.filter (fun e => e.2.kind == .propagation) ++ c.filter (fun e => e.2.kind == .priv)
      ++ c.filter (fun e => e.2.kind == .joint) := by
  induction c with
  | nil => rfl
  | cons x r ih =>
    rw [List.pairwise_cons] at h
    have hr := ih (fun e he => hkn e (by simp [he])) h.2
    cases hx : x.2.kind with
    | unknown => exact absurd hx (hkn x (by simp))
    | propagation =>
      simp only [List.filter_cons, hx]
      simpa using hr
    | priv =>
      have h0 : r.filter (fun e => e.2.kind == .propagation) = [] := by
        rw [List.filter_eq_nil_iff]; intro e he hc
        have := h.1 e he
        simp at hc
        rw [hx, hc] at this; simp [ObsType.prio] at this
      simp only [List.filter_cons, hx]
      rw [h0] at hr ⊢
      simpa using hr
    | joint =>
      have h0 : r.filter (fun e => e.2.kind == .propagation) = [] := by
        rw [List.filter_eq_nil_iff]; intro e he hc
        have := h.1 e he
        simp at hc
        rw [hx, hc] at this; simp [ObsType.prio] at this
      have h1 : r.filter (fun e => e.2.kind == .priv) = [] := by
        rw [List.filter_eq_nil_iff]; intro e he hc
        have := h.1 e he
        simp at hc
        rw [hx, hc] at this; simp [ObsType.prio] at this
      simp only [List.filter_cons, hx]
      rw [h0, h1] at hr ⊢
      simpa using hr

theorem cls_eq (b : Buf (Meas P)) (k : Int) (K : ObsType) :
    cls b k K = (b.filter (fun e => e.1 == k)).filter (fun e => e.2.kind == K) := by
  unfold cls; rw [List.filter_filter]; apply List.filter_congr
  intro e _; rw [Bool.and_comm]

/-- Time-and-priority sorted histories are determined by their classes. -/
theorem ord_ext (a b : Buf (Meas P)) (ha : POrd a) (hb : POrd b) (ka : Keyed a) (kb : Keyed b)
    (na : Known a) (nb : Known b) (h : ∀ k K, K ≠ .unknown → cls a k K = cls b k K) : a = b := by
  apply sorted_ext a b (ha.sorted ka) (hb.sorted kb)
  intro k
  rw [group_split _ (na.filter _) (groups_of_pord a ka ha k),
    group_split _ (nb.filter _) (groups_of_pord b kb hb k)]
  simp only [← cls_eq]
  rw [h k .propagation (by simp), h k .priv (by simp), h k .joint (by simp)]

/-- Equal classes and known types: a permutation. -/
theorem perm_of_cls (a b : Buf (Meas P)) (na : Known a) (nb : Known b)
    (h : ∀ k K, K ≠ .unknown → cls a k K = cls b k K) : a.Perm b := by
  classical
  rw [List.perm_iff_count]
  intro e
  have hc : ∀ c : Buf (Meas P), c.count e = (cls c e.1 e.2.kind).count e := by
    intro c
    unfold cls
    rw [List.count_filter (by simp)]
  by_cases hu : e.2.kind = .unknown
  · rw [List.count_eq_zero_of_not_mem (fun hm => na e hm hu),
      List.count_eq_zero_of_not_mem (fun hm => nb e hm hu)]
  · rw [hc a, hc b, h _ _ hu]

/-! ## insertMulti on measurement histories -/

theorem cls_insertMulti (b : Buf (Meas P)) (hs : b.SortedKeys) (m : Meas P) (k : Int) (K : ObsType) :
    cls (b.insertMulti m.t m) k K = cls b k K ++ if m.t = k ∧ m.kind = K then [(m.t, m)] else [] := by
  rw [cls_eq, cls_eq, Buf.filter_key_insertMulti b hs]
  by_cases hk : m.t = k
  · subst hk
    by_cases hK : m.kind = K
    · simp [hK]
    · simp [hK]
  · have : ¬ k = m.t := fun hc => hk hc.symm
    simp [hk, this]

theorem keyed_insertMulti (b : Buf (Meas P)) (hk : Keyed b) (m : Meas P) : Keyed (b.insertMulti m.t m) := by
  intro e he
  rw [Buf.mem_insertMulti] at he
  rcases he with rfl | he
  · rfl
  · exact hk e he

theorem known_insertMulti (b : Buf (Meas P)) (hk : Known b) (m : Meas P) (hm : m.kind ≠ .unknown) :
    Known (b.insertMulti m.t m) := by
  intro e he
  rw [Buf.mem_insertMulti] at he
  rcases he with rfl | he
  · exact hm
  · exact hk e he

/-! ## sort_measurements_from_t -/

theorem reinsert_spec (K : ObsType) (src dst : Buf (Meas P)) (hk : Keyed src) (hd : dst.SortedKeys) :
    (Handler.reinsert K src dst).SortedKeys ∧
    ∀ k, (Handler.reinsert K src dst).filter (fun e => e.1 == k) =
      dst.filter (fun e => e.1 == k) ++ cls src k K := by
  unfold Handler.reinsert
  induction src generalizing dst with
  | nil => simp [cls, hd]
  | cons x r ih =>
    simp only [List.foldl_cons]
    have hkr : Keyed r := fun e he => hk e (by simp [he])
    have hx : x.1 = x.2.t := hk x (by simp)
    by_cases hK : x.2.kind = K
    · rw [if_pos hK]
      obtain ⟨h1, h2⟩ := ih (dst.insertMulti x.2.t x.2) hkr (Buf.sorted_insertMulti dst hd _ _)
      refine ⟨h1, ?_⟩
      intro k
      rw [h2, Buf.filter_key_insertMulti dst hd]
      unfold cls
      by_cases hk' : x.2.t = k
      · rw [List.filter_cons_of_pos (by simp [hx, hk', hK])]
        have hxx : (x.2.t, x.2) = x := by rw [← hx]
        rw [if_pos hk', hxx]; simp
      · rw [List.filter_cons_of_neg (by simp [hx, hk'])]
        simp [hk']
    · rw [if_neg hK]
      obtain ⟨h1, h2⟩ := ih dst hkr hd
      refine ⟨h1, ?_⟩
      intro k
      rw [h2]
      unfold cls
      rw [List.filter_cons_of_neg (by simp [hK])]

theorem cls_filter_key (b : Buf (Meas P)) (p : Int → Bool) (k : Int) (K : ObsType) :
    cls (b.filter (fun e => p e.1)) k K = if p k then cls b k K else [] := by
  unfold cls
  rw [List.filter_filter]
  by_cases h : p k
  · rw [if_pos h]; apply List.filter_congr
    intro e _; by_cases he : e.1 = k <;> simp [he, h]
  · rw [if_neg h, List.filter_eq_nil_iff]
    intro e _; by_cases he : e.1 = k <;> simp [he, h]

theorem filter_filter_key (b : Buf α) (p : Int → Bool) (k : Int) :
    (b.filter (fun e => p e.1)).filter (fun e => e.1 == k) =
      if p k then b.filter (fun e => e.1 == k) else [] := by
  rw [List.filter_filter]
  by_cases h : p k
  · rw [if_pos h]; apply List.filter_congr
    intro e _; by_cases he : e.1 = k <;> simp [he, h]
  · rw [if_neg h, List.filter_eq_nil_iff]
    intro e _; by_cases he : e.1 = k <;> simp [he, h]

/-- Everything about one key after sorting. -/
theorem sortFrom_spec (b : Buf (Meas P)) (hs : b.SortedKeys) (hk : Keyed b) (hn : Known b) (t : Int) :
    (Handler.sortFrom b t).SortedKeys ∧ Keyed (Handler.sortFrom b t) ∧ Known (Handler.sortFrom b t) ∧
    (∀ k, k < t → (Handler.sortFrom b t).filter (fun e => e.1 == k) = b.filter (fun e => e.1 == k)) ∧
    (∀ k, t ≤ k → (Handler.sortFrom b t).filter (fun e => e.1 == k) =
      cls b k .propagation ++ cls b k .priv ++ cls b k .joint) := by
  unfold Handler.sortFrom
  cases hl : b.latest with
  | none =>
    unfold Buf.latest at hl
    rw [List.getLast?_eq_none_iff] at hl
    subst hl; simp [cls, hs, hk, hn]
  | some l =>
    simp only
    have hlast : ∀ e ∈ b, e.1 ≤ l.1 := hs.le_getLast hl
    have hlm : l ∈ b := List.mem_of_getLast? hl
    by_cases htl : t ≤ l.1
    · have hms : Buf.betweenMulti b t l.1 = b.filter (fun e => decide (t ≤ e.1)) := by
        rw [(c08_multi b hs t l.1 htl).1]
        apply List.filter_congr
        intro e he
        have := hlast e he
        rw [Bool.eq_iff_iff]; simp [this]
      have hne : (b.filter (fun e => decide (t ≤ e.1))).isEmpty = false := by
        rw [List.isEmpty_eq_false_iff]
        exact List.ne_nil_of_mem (List.mem_filter.mpr ⟨hlm, by simpa using htl⟩)
      rw [hms, hne]
      simp only [Bool.false_eq_true, if_false]
      have hbase : (Buf.removeAt (Buf.removeAfter b t) t) = b.filter (fun e => decide (e.1 < t)) := by
        rw [(c10_remove_exact b hs t).1]
        unfold Buf.removeAt
        rw [List.filter_filter]
        apply List.filter_congr
        intro e _
        rw [Bool.eq_iff_iff]; simp; omega
      rw [hbase]
      set ms := b.filter (fun e => decide (t ≤ e.1)) with hmsdef
      have kms : Keyed ms := hk.filter _
      have s0 : Buf.SortedKeys (b.filter (fun e => decide (e.1 < t))) := hs.filter _
      obtain ⟨s1, f1⟩ := reinsert_spec .propagation ms _ kms s0
      obtain ⟨s2, f2⟩ := reinsert_spec .priv ms _ kms s1
      obtain ⟨s3, f3⟩ := reinsert_spec .joint ms _ kms s2
      have hall : ∀ k, (Handler.reinsert .joint ms (Handler.reinsert .priv ms
          (Handler.reinsert .propagation ms (b.filter (fun e => decide (e.1 < t)))))).filter (fun e => e.1 == k)
          = if k < t then b.filter (fun e => e.1 == k)
            else cls b k .propagation ++ cls b k .priv ++ cls b k .joint := by
        intro k
        rw [f3, f2, f1, filter_filter_key b (fun x => decide (x < t)), hmsdef,
          cls_filter_key b (fun x => decide (t ≤ x)), cls_filter_key b (fun x => decide (t ≤ x)),
          cls_filter_key b (fun x => decide (t ≤ x))]
        by_cases hkt : k < t
        · have : ¬ t ≤ k := by omega
          simp [hkt, this]
        · have : t ≤ k := by omega
          simp [hkt, this]
      have hmem : ∀ e ∈ (Handler.reinsert .joint ms (Handler.reinsert .priv ms
          (Handler.reinsert .propagation ms (b.filter (fun e => decide (e.1 < t)))))), e ∈ b := by
        intro e he
        have : e ∈ (Handler.reinsert .joint ms (Handler.reinsert .priv ms
          (Handler.reinsert .propagation ms (b.filter (fun e => decide (e.1 < t)))))).filter
            (fun x => x.1 == e.1) := List.mem_filter.mpr ⟨he, by simp⟩
        rw [hall] at this
        split at this
        · exact List.mem_of_mem_filter this
        · simp only [List.mem_append] at this
          rcases this with (h | h) | h <;> exact List.mem_of_mem_filter h
      refine ⟨s3, fun e he => hk e (hmem e he), fun e he => hn e (hmem e he), ?_, ?_⟩
      · intro k hkt; rw [hall, if_pos hkt]
      · intro k hkt; rw [hall, if_neg (by omega)]
    · have hms : Buf.betweenMulti b t l.1 = [] := by
        unfold Buf.betweenMulti; rw [if_neg (fun hc => htl hc.1)]
      rw [hms]
      simp only [List.isEmpty_nil, if_true]
      refine ⟨hs, hk, hn, fun _ _ => by trivial, ?_⟩
      intro k hkt
      have hz : ∀ q : Int × Meas P → Bool, b.filter (fun e => e.1 == k && q e) = [] := by
        intro q
        rw [List.filter_eq_nil_iff]
        intro e he
        have := hlast e he
        have : ¬ e.1 = k := by omega
        simp [this]
      have h0 := hz (fun _ => true)
      simp only [Bool.and_true] at h0
      unfold cls
      rw [h0, hz, hz, hz]; rfl

theorem cls_sortFrom (b : Buf (Meas P)) (hs : b.SortedKeys) (hk : Keyed b) (hn : Known b) (t : Int)
    (k : Int) (K : ObsType) (hK : K ≠ .unknown) : cls (Handler.sortFrom b t) k K = cls b k K := by
  obtain ⟨_, _, _, h1, h2⟩ := sortFrom_spec b hs hk hn t
  rw [cls_eq]
  by_cases hkt : k < t
  · rw [h1 k hkt, ← cls_eq]
  · rw [h2 k (by omega)]
    simp only [List.filter_append]
    have hcc : ∀ K', (cls b k K').filter (fun e => e.2.kind == K) = if K' = K then cls b k K else [] := by
      intro K'
      unfold cls
      rw [List.filter_filter]
      by_cases hKK : K' = K
      · subst hKK; rw [if_pos rfl]; apply List.filter_congr
        intro e _; cases (e.2.kind == K') <;> simp
      · rw [if_neg hKK, List.filter_eq_nil_iff]
        intro e _
        simp only [Bool.and_eq_true, beq_iff_eq]
        rintro ⟨h1, _, h3⟩; exact hKK (h3.symm.trans h1)
    rw [hcc, hcc, hcc]
    cases K <;> simp_all

/-- Sorting yields time-and-priority order if the part before `t` already has it. -/
theorem pord_sortFrom (b : Buf (Meas P)) (hs : b.SortedKeys) (hk : Keyed b) (hn : Known b) (t : Int)
    (hp : POrd (b.filter (fun e => decide (e.1 < t)))) : POrd (Handler.sortFrom b t) := by
  obtain ⟨h1, h2, h3, h4, h5⟩ := sortFrom_spec b hs hk hn t
  apply pord_of_groups _ h1 h2
  intro k
  by_cases hkt : k < t
  · rw [h4 k hkt]
    have hg := groups_of_pord _ (hk.filter _) hp k
    rw [filter_filter_key b (fun x => decide (x < t)), if_pos (by simpa using hkt)] at hg
    exact hg
  · rw [h5 k (by omega)]
    have hin : ∀ K e, e ∈ cls b k K → e.2.kind = K := by
      intro K e he
      unfold cls at he; rw [List.mem_filter] at he
      have := he.2; simp at this; exact this.2
    have hself : ∀ K, (cls b k K).Pairwise (fun x y => x.2.kind.prio ≤ y.2.kind.prio) := by
      intro K
      rw [List.pairwise_iff_forall_sublist]
      intro x y hsub
      have hx := hin K x (hsub.subset (by simp))
      have hy := hin K y (hsub.subset (by simp))
      rw [hx, hy]
    rw [List.pairwise_append, List.pairwise_append]
    refine ⟨⟨hself _, hself _, ?_⟩, hself _, ?_⟩
    · intro x hx y hy; rw [hin _ x hx, hin _ y hy]; decide
    · intro x hx y hy
      rw [hin _ y hy]
      rcases List.mem_append.mp hx with hx | hx
      · rw [hin _ x hx]; decide
      · rw [hin _ x hx]; decide

/-- Sorting an already sorted history changes nothing. -/
theorem sortFrom_of_pord (b : Buf (Meas P)) (hp : POrd b) (hk : Keyed b) (hn : Known b) (t : Int) :
    Handler.sortFrom b t = b := by
  have hs := hp.sorted hk
  obtain ⟨h1, h2, h3, _, _⟩ := sortFrom_spec b hs hk hn t
  exact ord_ext _ _ (pord_sortFrom b hs hk hn t (hp.filter _)) hp h2 hk h3 hn
    (fun k K hK => cls_sortFrom b hs hk hn t k K hK)

end Ikf
