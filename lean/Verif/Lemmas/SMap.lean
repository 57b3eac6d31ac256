import Verif.Model.SMap
import Verif.Lemmas.Mat

namespace Ikf.SMap
variable {V W : Type _}

/-- Keys strictly increasing. -/
def Sorted (m : SMap V) : Prop := m.Pairwise (fun a c => a.1 < c.1)

@[simp] theorem find_nil (k : ℕ) : find ([] : SMap V) k = none := rfl
theorem find_cons (e : ℕ × V) (r : SMap V) (k : ℕ) : find (e :: r) k = if e.1 = k then some e.2 else find r k := rfl

theorem find_set (m : SMap V) (k : ℕ) (v : V) (k' : ℕ) :
    (m.set k v).find k' = if k = k' then some v else m.find k' := by
  induction m with
  | nil => simp [set, find]
  | cons e r ih =>
    unfold set
    split
    · simp only [find_cons]
    · split
      · rename_i h; simp only [find_cons]; rw [h]
        split <;> rfl
      · rename_i h1 h2
        rw [find_cons, find_cons, ih]
        by_cases h : e.1 = k'
        · rw [if_pos h, if_neg (by omega), if_pos h]
        · rw [if_neg h, if_neg h]

@[simp] theorem find_set_self (m : SMap V) (k : ℕ) (v : V) : (m.set k v).find k = some v := by
  rw [find_set, if_pos rfl]
theorem find_set_ne (m : SMap V) {k k' : ℕ} (h : k ≠ k') (v : V) : (m.set k v).find k' = m.find k' := by
  rw [find_set, if_neg h]

theorem mem_set (m : SMap V) (k : ℕ) (v : V) (e) (h : e ∈ m.set k v) : e = (k, v) ∨ e ∈ m := by
  induction m with
  | nil => simp [set] at h; exact Or.inl h
  | cons a r ih =>
    unfold set at h
    split at h
    · rcases List.mem_cons.mp h with h | h
      · exact Or.inl h
      · exact Or.inr h
    · split at h
      · rcases List.mem_cons.mp h with h | h
        · exact Or.inl h
        · exact Or.inr (List.mem_cons_of_mem _ h)
      · rcases List.mem_cons.mp h with h | h
        · exact Or.inr (h ▸ List.mem_cons_self)
        · exact (ih h).imp id (List.mem_cons_of_mem _)

theorem Sorted.set {m : SMap V} (h : m.Sorted) (k : ℕ) (v : V) : (m.set k v).Sorted := by
  induction m with
  | nil => simp [SMap.set, Sorted]
  | cons a r ih =>
    have h' := List.pairwise_cons.mp h
    unfold SMap.set
    split
    · rename_i hlt
      refine List.pairwise_cons.mpr ⟨?_, h⟩
      intro e he
      rcases List.mem_cons.mp he with he | he
      · rw [he]; exact hlt
      · exact lt_trans hlt (h'.1 e he)
    · split
      · rename_i h1 h2
        refine List.pairwise_cons.mpr ⟨?_, h'.2⟩
        intro e he; simp only; rw [h2]; exact h'.1 e he
      · rename_i h1 h2
        refine List.pairwise_cons.mpr ⟨?_, ih h'.2⟩
        intro e he
        rcases mem_set r k v e he with he | he
        · rw [he]; simp only; omega
        · exact h'.1 e he

theorem find_eq_some {m : SMap V} (h : m.Sorted) (k : ℕ) (v : V) : m.find k = some v ↔ (k, v) ∈ m := by
  induction m with
  | nil => simp
  | cons a r ih =>
    have h' := List.pairwise_cons.mp h
    rw [find_cons, List.mem_cons]
    by_cases hk : a.1 = k
    · rw [if_pos hk]
      constructor
      · intro hv; left; rw [← hk, ← Option.some.inj hv]
      · rintro (hv | hv)
        · rw [← hv]
        · have := h'.1 _ hv; simp only at this; omega
    · rw [if_neg hk, ih h'.2]
      constructor
      · exact Or.inr
      · rintro (hv | hv)
        · rw [← hv] at hk; exact absurd rfl hk
        · exact hv

theorem find_none_iff (m : SMap V) (k : ℕ) : m.find k = none ↔ ∀ e ∈ m, e.1 ≠ k := by
  induction m with
  | nil => simp
  | cons a r ih =>
    rw [find_cons]
    by_cases hk : a.1 = k
    · rw [if_pos hk]
      constructor
      · intro h; simp at h
      · intro h; exact absurd hk (h a List.mem_cons_self)
    · rw [if_neg hk, ih]
      simp [hk]

theorem mem_of_find {m : SMap V} {k : ℕ} {v : V} (h : m.find k = some v) : (k, v) ∈ m := by
  induction m with
  | nil => simp at h
  | cons a r ih =>
    rw [find_cons] at h
    split at h
    · rename_i hk; rw [← hk, ← Option.some.inj h]; exact List.mem_cons_self
    · exact List.mem_cons_of_mem _ (ih h)

theorem find_isSome_iff (m : SMap V) (k : ℕ) : (m.find k).isSome = true ↔ k ∈ m.keys := by
  rw [← not_iff_not, Bool.not_eq_true, Option.isSome_eq_false_iff, Option.isNone_iff_eq_none, find_none_iff]
  unfold keys; simp
  exact ⟨fun h x hx => h k x hx rfl, fun h a b hab he => h b (he ▸ hab)⟩

theorem find_mapV (f : V → W) (m : SMap V) (k : ℕ) : (m.mapV f).find k = (m.find k).map f := by
  induction m with
  | nil => rfl
  | cons a r ih =>
    show find ((a.1, f a.2) :: mapV f r) k = _
    rw [find_cons, find_cons]
    simp only
    split
    · rfl
    · exact ih

theorem Sorted.mapV {m : SMap V} (h : m.Sorted) (f : V → W) : (m.mapV f).Sorted := by
  unfold Sorted SMap.mapV
  exact List.pairwise_map.mpr h

theorem keys_mapV (f : V → W) (m : SMap V) : (m.mapV f).keys = m.keys := by
  unfold keys mapV; simp

theorem mapR_ok (f : V → Res W) (g : V → W) (m : SMap V) (h : ∀ e ∈ m, f e.2 = .ok (g e.2)) :
    m.mapR f = .ok (m.mapV g) := by
  induction m with
  | nil => rfl
  | cons a r ih =>
    have h1 : f a.2 = .ok (g a.2) := h a List.mem_cons_self
    have h2 := ih (fun e he => h e (List.mem_cons_of_mem _ he))
    show (f a.2 >>= fun w => mapR f r >>= fun rs => Res.ok ((a.1, w) :: rs)) = _
    rw [h1, Res.bind_ok, h2, Res.bind_ok]; rfl

/-- Every successful `mapR` is entrywise. -/
theorem mapR_spec (f : V → Res W) (m : SMap V) (m' : SMap W) (h : m.mapR f = .ok m') :
    m'.keys = m.keys ∧ (∀ k, m.find k = none → m'.find k = none) ∧
      (∀ k v, m.find k = some v → ∃ w, f v = .ok w ∧ m'.find k = some w) ∧
      (∀ e ∈ m, ∃ w, f e.2 = .ok w ∧ (e.1, w) ∈ m') ∧ (∀ e' ∈ m', ∃ v, (e'.1, v) ∈ m ∧ f v = .ok e'.2) := by
  induction m generalizing m' with
  | nil =>
    have : m' = [] := by
      have h : Res.ok ([] : SMap W) = .ok m' := h
      exact (Res.ok.inj h).symm
    subst this; simp [keys]
  | cons a r ih =>
    have h : (f a.2 >>= fun w => mapR f r >>= fun rs => Res.ok ((a.1, w) :: rs)) = .ok m' := h
    cases hf : f a.2 with
    | throws => rw [hf] at h; simp at h
    | ub => rw [hf] at h; simp at h
    | ok w =>
      rw [hf, Res.bind_ok] at h
      cases hr : mapR f r with
      | throws => rw [hr] at h; simp at h
      | ub => rw [hr] at h; simp at h
      | ok rs =>
        rw [hr, Res.bind_ok] at h
        have := Res.ok.inj h
        subst this
        obtain ⟨i1, i2, i3, i4, i5⟩ := ih rs hr
        refine ⟨?_, ?_, ?_, ?_, ?_⟩
        · show a.1 :: keys rs = a.1 :: keys r; rw [i1]
        · intro k hk
          rw [find_cons] at hk ⊢
          split at hk
          · simp at hk
          · rename_i hne; rw [if_neg hne]; exact i2 k hk
        · intro k v hk
          rw [find_cons] at hk
          rw [find_cons]
          split at hk
          · rename_i he
            have := Option.some.inj hk; subst this
            exact ⟨w, hf, by rw [if_pos he]⟩
          · rename_i hne
            obtain ⟨w', hw, hfd⟩ := i3 k v hk
            exact ⟨w', hw, by rw [if_neg hne]; exact hfd⟩
        · intro e he
          rcases List.mem_cons.mp he with he | he
          · subst he; exact ⟨w, hf, List.mem_cons_self⟩
          · obtain ⟨w', hw, hm⟩ := i4 e he
            exact ⟨w', hw, List.mem_cons_of_mem _ hm⟩
        · intro e he
          rcases List.mem_cons.mp he with he | he
          · subst he; exact ⟨a.2, List.mem_cons_self, hf⟩
          · obtain ⟨v, hv, hw⟩ := i5 e he
            exact ⟨v, List.mem_cons_of_mem _ hv, hw⟩

theorem sorted_iff_keys (m : SMap V) : m.Sorted ↔ m.keys.Pairwise (· < ·) := by
  unfold Sorted keys; rw [List.pairwise_map]

theorem Sorted.mapR {m : SMap V} (h : m.Sorted) {f : V → Res W} {m' : SMap W} (hm : m.mapR f = .ok m') :
    m'.Sorted := by
  rw [sorted_iff_keys, (mapR_spec f m m' hm).1, ← sorted_iff_keys]; exact h

theorem find_erase (m : SMap V) (k k' : ℕ) : (m.erase k).find k' = if k = k' then none else m.find k' := by
  induction m with
  | nil => simp [erase]
  | cons a r ih =>
    unfold erase at ih ⊢
    rw [List.filter_cons]
    by_cases h : a.1 = k
    · have : (!(a.1 == k)) = false := by simp [h]
      rw [this, if_neg (by simp), ih, find_cons]
      by_cases hk : k = k'
      · rw [if_pos hk, if_pos hk]
      · rw [if_neg hk, if_neg hk, if_neg (by omega)]
    · have : (!(a.1 == k)) = true := by simp [h]
      rw [this, if_pos rfl, find_cons, find_cons, ih]
      by_cases hk : a.1 = k'
      · rw [if_pos hk, if_pos hk, if_neg (by omega)]
      · rw [if_neg hk, if_neg hk]

theorem Sorted.erase {m : SMap V} (h : m.Sorted) (k : ℕ) : (m.erase k).Sorted := List.Pairwise.filter _ h

theorem find_emplace (m : SMap V) (k : ℕ) (v : V) (k' : ℕ) :
    (m.emplace k v).find k' = if k = k' ∧ m.find k = none then some v else m.find k' := by
  unfold emplace
  cases h : m.find k with
  | some x => simp
  | none =>
    simp only [find_set]
    by_cases hk : k = k' <;> simp [hk]

theorem Sorted.emplace {m : SMap V} (h : m.Sorted) (k : ℕ) (v : V) : (m.emplace k v).Sorted := by
  unfold SMap.emplace; split
  · exact h
  · exact h.set k v

end Ikf.SMap
