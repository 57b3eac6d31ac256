import Verif.Lemmas.Buffer
import Mathlib.Data.Set.Card
import Mathlib.Data.List.NodupEquivFin

namespace Ikf
namespace Buf
variable {α : Type _}

theorem removeEveryLoop_eq (N : Nat) (hN : 0 < N) (cnt : Nat) (b : Buf α) :
    removeEveryLoop N cnt b =
      some (((b.zipIdx cnt).filter (fun p => decide (p.2 % N ≠ 0))).map (·.1)) := by
  induction b generalizing cnt with
  | nil => simp [removeEveryLoop]
  | cons e r ih =>
    unfold removeEveryLoop
    rw [if_neg (by omega), ih]
    by_cases h : cnt % N = 0 <;> simp [h]

theorem subsampleLoop_eq (N : Nat) (hN : 0 < N) (cnt : Nat) (b : Buf α) :
    subsampleLoop N cnt b =
      some (((b.zipIdx cnt).filter (fun p => decide (p.2 % N = 0))).map (·.1)) := by
  induction b generalizing cnt with
  | nil => simp [subsampleLoop]
  | cons e r ih =>
    unfold subsampleLoop
    rw [if_neg (by omega), ih]
    by_cases h : cnt % N = 0 <;> simp [h]

/-- Selecting by position gives a sublist. -/
theorem posFilter_sublist (b : Buf α) (cnt : Nat) (p : (Int × α) × Nat → Bool) :
    (((b.zipIdx cnt).filter p).map (·.1)).Sublist b := by
  have h1 : ((b.zipIdx cnt).filter p).Sublist (b.zipIdx cnt) := List.filter_sublist
  have h2 := h1.map (·.1)
  simpa using h2

theorem mem_posFilter (b : Buf α) (p : Nat → Bool) (e : Int × α) :
    e ∈ ((b.zipIdx).filter (fun x => p x.2)).map (·.1) ↔ ∃ i, b[i]? = some e ∧ p i = true := by
  simp only [List.mem_map, List.mem_filter, Prod.exists]
  constructor
  · rintro ⟨k, v, i, ⟨h1, h2⟩, rfl⟩
    exact ⟨i, by simpa using List.mem_zipIdx_iff_getElem?.mp h1, h2⟩
  · rintro ⟨i, h1, h2⟩
    exact ⟨e.1, e.2, i, ⟨List.mem_zipIdx_iff_getElem?.mpr (by simpa using h1), h2⟩, rfl⟩

/-- Abstraction: the finite map a buffer stands for. -/
def absMap (b : Buf α) : Int → Option α := fun k => (b.getAt k).map (·.2)

theorem absMap_eq_some (b : Buf α) (h : b.StrictKeys) (k : Int) (v : α) :
    b.absMap k = some v ↔ (k, v) ∈ b := by
  unfold absMap
  rw [Option.map_eq_some_iff]
  constructor
  · rintro ⟨e, he, rfl⟩
    have := (getAt_eq_some b h k e).mp he
    obtain ⟨h1, rfl⟩ := this; exact h1
  · intro hm; exact ⟨(k, v), (getAt_eq_some b h k _).mpr ⟨hm, rfl⟩, rfl⟩

theorem absMap_isSome (b : Buf α) (h : b.StrictKeys) (k : Int) :
    (b.absMap k).isSome = true ↔ ∃ e ∈ b, e.1 = k := by
  rw [Option.isSome_iff_exists]
  constructor
  · rintro ⟨v, hv⟩; exact ⟨(k, v), (absMap_eq_some b h k v).mp hv, rfl⟩
  · rintro ⟨e, he, rfl⟩; exact ⟨e.2, (absMap_eq_some b h _ _).mpr he⟩

theorem absMap_ext (b : Buf α) (h : b.StrictKeys) (f : Int → Option α)
    (hf : ∀ k v, (k, v) ∈ b ↔ f k = some v) : b.absMap = f := by
  funext k
  apply Option.ext
  intro v
  rw [← hf]
  exact absMap_eq_some b h k v

theorem StrictKeys.nodup_keys {b : Buf α} (h : b.StrictKeys) : (b.map (·.1)).Nodup := by
  unfold StrictKeys at h
  rw [List.nodup_iff_pairwise_ne, List.pairwise_map]
  exact List.Pairwise.imp (fun h => by omega) h

theorem ncard_keys (b : Buf α) (h : b.StrictKeys) : {k : Int | ∃ e ∈ b, e.1 = k}.ncard = b.length := by
  have : {k : Int | ∃ e ∈ b, e.1 = k} = ((b.map (·.1)).toFinset : Set Int) := by
    ext k; simp
  rw [this, Set.ncard_coe_finset, List.toFinset_card_of_nodup h.nodup_keys, List.length_map]

/-- Position of an element = number of smaller keys. -/
theorem rank_eq (b : Buf α) (h : b.StrictKeys) (i : Nat) (e : Int × α) (hi : b[i]? = some e) :
    {k : Int | k < e.1 ∧ (b.absMap k).isSome = true}.ncard = i := by
  have hlt : i < b.length := by
    rw [List.getElem?_eq_some_iff] at hi; exact hi.1
  have hf : b.filter (fun x => decide (x.1 < e.1)) = b.take i := by
    have hsplit : b = b.take i ++ b.drop i := (List.take_append_drop i b).symm
    have hd : b.drop i = e :: b.drop (i+1) := by
      rw [List.getElem?_eq_some_iff] at hi
      obtain ⟨_, rfl⟩ := hi
      exact (List.drop_eq_getElem_cons hlt)
    have hp := h
    unfold StrictKeys at hp
    rw [hsplit, List.pairwise_append, hd, List.pairwise_cons] at hp
    conv_lhs => rw [hsplit, hd]
    rw [List.filter_append]
    have h1 : (b.take i).filter (fun x => decide (x.1 < e.1)) = b.take i := by
      rw [List.filter_eq_self]; intro a ha
      simpa using hp.2.2 a ha e (by simp)
    have h2 : (e :: b.drop (i+1)).filter (fun x => decide (x.1 < e.1)) = [] := by
      rw [List.filter_eq_nil_iff]; intro a ha
      rcases List.mem_cons.mp ha with rfl | ha
      · simp
      · have := hp.2.1.1 a ha; simp; omega
    rw [h1, h2, List.append_nil]
  have hs : {k : Int | k < e.1 ∧ (b.absMap k).isSome = true}
      = {k : Int | ∃ x ∈ b.filter (fun x => decide (x.1 < e.1)), x.1 = k} := by
    ext k
    simp only [Set.mem_ofPred_eq, absMap_isSome b h, List.mem_filter, decide_eq_true_eq]
    constructor
    · rintro ⟨h1, x, hx, rfl⟩; exact ⟨x, ⟨hx, h1⟩, rfl⟩
    · rintro ⟨x, ⟨hx, h1⟩, rfl⟩; exact ⟨h1, x, hx, rfl⟩
  rw [hs, ncard_keys _ (h.filter _), hf, List.length_take]; omega

end Buf
end Ikf
