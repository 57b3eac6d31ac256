import Verif.Model.Names
import Mathlib.Tactic

/-!
# C43: names of enumeration values
-/

namespace Ikf.Names

/-- C43, belief strategy: parsing a printed name gives the value back, printed names are distinct, and a parsed
string is the printed name or one of the strings that default to EXACT. -/
theorem c43_get_belief : (∀ e, getBeliefParse (getBeliefName e) = e) ∧ Function.Injective getBeliefName ∧
    ∀ s, getBeliefName (getBeliefParse s) = s ∨ (getBeliefParse s = .exact ∧ ∀ e, getBeliefName e ≠ s) := by
  have h : ∀ e, getBeliefParse (getBeliefName e) = e := by intro e; cases e <;> decide
  refine ⟨h, fun a b hab => by rw [← h a, hab, h b], ?_⟩
  intro s
  unfold getBeliefParse
  split_ifs with h1 h2 h3
  · left; rw [h1]; rfl
  · left; rw [h2]; rfl
  · left; rw [h3]; rfl
  · right
    refine ⟨rfl, ?_⟩
    intro e
    cases e
    · exact fun h => h1 h.symm
    · exact fun h => h2 h.symm
    · exact fun h => h3 h.symm

/-- C43, observation types, statuses and redo strategies: printed names are distinct (the library has no parser). -/
theorem c43_distinct : Function.Injective obsName ∧ Function.Injective statusName ∧ Function.Injective redoName := by
  refine ⟨?_, ?_, ?_⟩ <;> intro a b h <;> cases a <;> cases b <;> first | rfl | (exact absurd h (by decide))

/-- C43, fusion strategy. Missing (`_partial`): SKF. -/
theorem c43_fusion_partial (e : Fusion) (he : e ≠ .skf) :
    fusionParse (fusionName e) = e ∧ ∀ f, f ≠ .skf → fusionName f = fusionName e → f = e := by
  have h : ∀ e, e ≠ .skf → fusionParse (fusionName e) = e := by
    intro e he; cases e <;> first | exact absurd rfl he | decide
  exact ⟨h e he, fun f hf hfe => by rw [← h f hf, hfe, h e he]⟩

/-- C43, fusion strategy, parsing of arbitrary strings: every accepted string is the printed name of the result or
one of the two further spellings. -/
theorem c43_fusion_parse (s : String) : fusionParse s = .unknown ∨ fusionName (fusionParse s) = s ∨
    (s = "SKF" ∧ fusionParse s = .skf) ∨ (s = "CSE_IKF" ∧ fusionParse s = .cIkf) := by
  unfold fusionParse
  split_ifs with h1 h2 h3 h4 h5
  · right; left; rw [h1]; rfl
  · right; left; rw [h2]; rfl
  · right; right; left; exact ⟨h3, rfl⟩
  · rcases h4 with h4 | h4
    · right; left; rw [h4]; rfl
    · right; right; right; exact ⟨h4, rfl⟩
  · right; left; rw [h5]; rfl
  · left; rfl

/-- C43 is false of SKF: it prints as UNKNOWN and so does not parse back. -/
theorem c43_fusion_fails : fusionName .skf = fusionName .unknown ∧ fusionParse (fusionName .skf) ≠ .skf := by decide

/-- C43 is false of the order strategy: both print as STRICT. -/
theorem c43_order_fails : ¬ Function.Injective orderName :=
  fun h => absurd (@h .strict .relaxed rfl) (by decide)

example : fusionParse "C_IKF" = .cIkf ∧ fusionParse "foo" = .unknown ∧ fusionName .dp = "DP" := by decide

end Ikf.Names
