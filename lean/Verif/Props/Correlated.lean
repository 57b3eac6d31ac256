import Verif.Lemmas.Correlated
import Verif.Props.Restart
import Verif.Props.CollabRedo

/-! # C112: who an instance is correlated with -/

namespace Ikf
open Mat Handler

namespace Inst

theorem sorted_keys_filter {V : Type _} {m : SMap V} (h : m.Sorted) (f : ℕ × V → Bool) : ((m.filter f).map (·.1)).Pairwise (· < ·) := by
  rw [List.pairwise_map]; exact List.Pairwise.filter _ h

/-- C112. `get_correlated_IDs_at_t(t)` lists, each once, exactly the instances towards which a factor is stored at `t`; `_after_t` those with a
factor stored after `t`; `get_correlated_IDs` lists at least these. -/
theorem c112_listed {i : Inst} (ho : i.Ord) (t : Int) (J : ℕ) :
    (i.correlatedAt t).Pairwise (· < ·) ∧ (i.correlated).Pairwise (· < ·) ∧ (i.correlatedAfter t).Pairwise (· < ·) ∧
    (J ∈ i.correlatedAt t ↔ ∃ F, i.fac J t = some F) ∧
    (J ∈ i.correlatedAfter t ↔ ∃ s F, t < s ∧ i.fac J s = some F) ∧
    ((∃ s F, i.fac J s = some F) → J ∈ i.correlated) := by
  refine ⟨sorted_keys_filter ho.ccf _, ?_, sorted_keys_filter ho.ccf _, ?_, ?_, ?_⟩
  · unfold correlated SMap.keys
    rw [List.pairwise_map]; exact ho.ccf
  · unfold correlatedAt fac
    simp only [List.mem_map, List.mem_filter]
    constructor
    · rintro ⟨e, ⟨he, hx⟩, rfl⟩
      have hf := SMap.find_eq_some ho.ccf e.1 e.2 |>.mpr he
      obtain ⟨x, hx, h1⟩ := (Buf.existAt_iff e.2 t).mp hx
      refine ⟨x.2, ?_⟩
      rw [hf, Option.bind_some, Buf.absMap_eq_some _ (ho.buf _ _ hf), ← h1]
      exact hx
    · rintro ⟨F, hF⟩
      cases hf : i.ccf.find J with
      | none => rw [hf] at hF; simp at hF
      | some b =>
        rw [hf, Option.bind_some, Buf.absMap_eq_some _ (ho.buf _ _ hf)] at hF
        exact ⟨(J, b), ⟨SMap.mem_of_find hf, (Buf.existAt_iff b t).mpr ⟨_, hF, rfl⟩⟩, rfl⟩
  · rw [Agents.mem_correlatedAfter_inst ho]
    unfold fac
    constructor
    · rintro ⟨b, hf, e, he, hlt⟩
      exact ⟨e.1, e.2, hlt, by rw [hf, Option.bind_some, Buf.absMap_eq_some _ (ho.buf _ _ hf)]; exact he⟩
    · rintro ⟨s, F, hlt, hF⟩
      cases hf : i.ccf.find J with
      | none => rw [hf] at hF; simp at hF
      | some b =>
        rw [hf, Option.bind_some, Buf.absMap_eq_some _ (ho.buf _ _ hf)] at hF
        exact ⟨b, rfl, _, hF, hlt⟩
  · rintro ⟨s, F, hF⟩
    unfold fac at hF
    cases hf : i.ccf.find J with
    | none => rw [hf] at hF; simp at hF
    | some b => exact List.mem_map_of_mem (SMap.mem_of_find hf)

/-- C112. `get_CrossCovFact_at_t` with a flag returns the stored factor and says true exactly when a non-empty one is stored. -/
theorem c112_factor {i : Inst} (t : Int) (J : ℕ) :
    ((i.factorAt t J).2 = true ↔ ∃ F, i.fac J t = some F ∧ 0 < F.size) ∧ ∀ F, i.fac J t = some F → (i.factorAt t J).1 = F := by
  unfold factorAt
  rw [getCCF_eq]
  cases h : i.fac J t with
  | none => simp [Mat.empty, Mat.size]
  | some F => simp

/-- C112. `get_CrossCovFact_before_t` returns the factor stored last before `t`; the empty matrix if there is none. -/
theorem c112_before {i : Inst} (ho : i.Ord) (t : Int) (J : ℕ) :
    (∃ s F, s < t ∧ i.fac J s = some F ∧ (∀ s' F', s' < t → i.fac J s' = some F' → s' ≤ s) ∧ i.factorBefore t J = F) ∨
    ((∀ s F, i.fac J s = some F → t ≤ s) ∧ i.factorBefore t J = Mat.empty) := by
  unfold factorBefore fac
  cases hf : i.ccf.find J with
  | none => right; simp
  | some b =>
    have hb := ho.buf _ _ hf
    simp only [Option.bind_some]
    have key : ∀ s F, Buf.absMap b s = some F ↔ (s, F) ∈ b := fun s F => Buf.absMap_eq_some b hb s F
    cases hg : b.getBefore t with
    | none =>
      right
      refine ⟨fun s F hF => ?_, rfl⟩
      rw [key] at hF
      by_contra hlt
      have := (Ikf.c06_get_before b hb t).1.mp hg (s, F) hF
      simp at this; omega
    | some e =>
      left
      obtain ⟨h1, h2, h3⟩ := ((Ikf.c06_get_before b hb t).2 e).mp hg
      exact ⟨e.1, e.2, h2, (key _ _).mpr h1, fun s' F' hlt hF => h3 _ ((key _ _).mp hF) hlt, rfl⟩

/-- C112. `propagate_CrossCovFact` does what `apply_propagation` does to the factors. -/
theorem c112_propagate (i : Inst) (ta tb : Int) (M : Mat) : i.propagateFactors ta tb M = i.addCorrection ta tb M := by
  have : propagateOne ta tb M = bufMul ta tb M := by
    funext b
    unfold propagateOne bufMul
    cases hg : b.getAt ta with
    | none =>
      simp only
      split <;> rfl
    | some e =>
      have : b.existAt ta = true := by
        by_contra hc
        have hn : b.getAt ta = none := by
          rw [Buf.getAt_eq_none]
          intro x hx hxt
          exact hc ((Buf.existAt_iff b ta).mpr ⟨x, hx, hxt⟩)
        rw [hn] at hg
        cases hg
      rw [this, if_pos rfl]
  unfold propagateFactors addCorrection
  rw [this]

end Inst

namespace Hdl
variable {P : Type _}

/-- `get(p)->get_correlated_IDs()` contains `q`. -/
def Lists (h : Hdl) (p q : ℕ) : Prop := ∃ i, h.find p = some i ∧ q ∈ i.correlated

theorem lists_iff (h : Hdl) (p q : ℕ) : h.Lists p q ↔ Tie h p q := by
  unfold Lists Tie Inst.correlated
  simp only [SMap.find_isSome_iff]

/-- C112. Correlation is mutual: after any history of measurements and redo requests, with instances that were not correlated in the beginning,
`q` is in the list of `p` exactly if `p` is in the list of `q`. -/
theorem c112_mutual (fp : FP) (near : Mat → Mat) (U : EkfUser P) {h0 h : Hdl} (h00 : ∀ p q, ¬ h0.Lists p q) (horizon : ℚ) (ops : List (HOp P))
    (hw : (ops.foldl (hStep fp (userInsts fp near U)) (init (.ok h0) horizon)).w = .ok h) (p q : ℕ) : h.Lists p q ↔ h.Lists q p := by
  obtain ⟨N, s, -, t⟩ := (keeps_grow (fp := fp) (near := near) (U := U) (E := fun _ _ => True) (fun _ _ _ _ _ _ _ _ _ _ => trivial) h0).run fp ops
    (init (.ok h0) horizon) (fun g hg => by rw [← Res.ok.inj hg]; exact .refl _) h hw
  rw [lists_iff, lists_iff, t, t, ← lists_iff, ← lists_iff]
  simp only [h00, false_or]
  exact ⟨s _ _, s _ _⟩

/-- C112. Instances are correlated only if they are observed together: if the filter class passes `p` and `q` together to `apply_observation` only
when `E p q`, then after any history every listed pair is in `E`. Taking part in the same measurement is enough: nothing else correlates. -/
theorem c112_only_together (fp : FP) (near : Mat → Mat) (U : EkfUser P) {h0 h : Hdl} (h00 : ∀ p q, ¬ h0.Lists p q) (horizon : ℚ) (ops : List (HOp P))
    (E : ℕ → ℕ → Prop)
    (hU : ∀ (m : Meas P) means n, m.kind = .joint → U.joint m.id m.data m.t means = .ok n → ∀ p q, p ≠ q → p ∈ n.1.keys → q ∈ n.1.keys → E p q)
    (hw : (ops.foldl (hStep fp (userInsts fp near U)) (init (.ok h0) horizon)).w = .ok h) (p q : ℕ) (hl : h.Lists p q) : E p q := by
  obtain ⟨N, -, e, t⟩ := (keeps_grow (fp := fp) (near := near) (U := U) (E := E) hU h0).run fp ops
    (init (.ok h0) horizon) (fun g hg => by rw [← Res.ok.inj hg]; exact .refl _) h hw
  rw [lists_iff, t, ← lists_iff] at hl
  exact e p q (hl.resolve_left (h00 p q))

/-- C112 fails for `get_correlated_IDs` in the other direction: it goes on to list an instance when no factor towards it is stored any more.
Instances 1 and 2 are correlated at 5 s, then everything from 3 s on is removed. -/
theorem c112_stale_fails : ∃ h h' : Hdl, Ordered h ∧ setSigma h 1 2 (one 2) 5000000000 = .ok h' ∧
    (removeBeliefsFrom h' 3000000000).Lists 1 2 ∧
    ∀ i, (removeBeliefsFrom h' 3000000000).find 1 = some i → ∀ s, i.fac 2 s = none := by
  refine ⟨EndExample.team 20, _, EndExample.team_ordered 20, rfl, ?_, ?_⟩
  · refine ⟨_, rfl, ?_⟩
    show 2 ∈ Inst.correlated _
    with_unfolding_all decide +kernel
  · intro i hi s
    have : i.ccf = [(2, [])] := by
      rw [← Option.some.inj hi]
      rfl
    unfold Inst.fac
    rw [this]
    rfl

/-- The premises of `c112_mutual` hold for a run with a delayed joint observation of instance 2 by instance 1. -/
example (g : ℕ → ℕ → ℝ) : (∀ p q, ¬ (EndExample.team 30).Lists p q) ∧
    ∃ h, (EndExample.ops.foldl (hStep FP.exact (userInsts FP.exact Example.near (Linear1D.user FP.exact g))) (Handler.init (.ok (EndExample.team 30)) 10)).w = .ok h := by
  refine ⟨?_, ?_⟩
  · rintro p q ⟨i, hi, hq⟩
    rw [EndExample.find_team hi] at hq
    simp [Inst.correlated, Inst.doInit, Inst.reset, SMap.keys] at hq
  · have h10 : |(10 : ℚ)| = 10 := by norm_num
    obtain ⟨L, c, h, -, -, -, hw, -⟩ := c84_prompt (fp := FP.exact) Example.nearOk (Linear1D.proper FP.exact g) GateOk.default EndExample.theTeam 10 (.init _ _) (by norm_num) (by norm_num) (by norm_num) (by norm_num) (by norm_num) EndExample.ops
      (by rw [h10]; exact EndExample.ops_prompt) EndExample.ops_ok
      (fun n => EndExample.served g (fun m hm => (List.take_sublist n _).subset hm) (List.Pairwise.sublist (List.take_sublist n _) EndExample.ops_once) (EndExample.ops_reached 30 g n))
    exact ⟨h, hw⟩

/-- A class with one sensor between 1 and 2: the premise on the class of `c112_only_together` holds for the pair 1, 2, so 3 is never correlated. -/
example (g : ℕ → ℕ → ℝ) : ∃ U : EkfUser Linear1D.Data, (∀ t ms, U.joint 1 (EndExample.dat 4 2) t ms = (Linear1D.user FP.exact g).joint 1 (EndExample.dat 4 2) t ms) ∧
    ∀ (m : Meas Linear1D.Data) means n, m.kind = .joint → U.joint m.id m.data m.t means = .ok n →
      ∀ p q, p ≠ q → p ∈ n.1.keys → q ∈ n.1.keys → (p = 1 ∧ q = 2) ∨ (p = 2 ∧ q = 1) := by
  refine ⟨{ Linear1D.user FP.exact g with joint := fun id d t ms => if id = 1 ∧ d.J = 2 then (Linear1D.user FP.exact g).joint id d t ms else .throws },
    fun t ms => by simp [EndExample.dat], ?_⟩
  intro m means n _ hn p q hpq hp hq
  simp only at hn
  split at hn
  · rename_i hc
    have hn' : Linear1D.joint g m.id m.data m.t means = .ok n := hn
    unfold Linear1D.joint at hn'
    rw [hc.1, hc.2] at hn'
    split at hn'
    · obtain ⟨a, -, hn'⟩ := bind_eq_ok hn'
      obtain ⟨b, -, hn'⟩ := bind_eq_ok hn'
      obtain ⟨c, -, hn'⟩ := bind_eq_ok hn'
      obtain ⟨d, -, hn'⟩ := bind_eq_ok hn'
      rw [← Res.ok.inj hn'] at hp hq
      have key : ∀ x ∈ SMap.keys (SMap.emplace [(1, Linear1D.row (-1))] 2 (Linear1D.row 1)), x = 1 ∨ x = 2 := by
        intro x hx
        obtain ⟨e, he, rfl⟩ := List.mem_map.mp hx
        rcases Linear1D.mem_emplace he with rfl | rfl <;> simp
      have h1 := key p hp
      have h2 := key q hq
      omega
    · cases hn'
  · cases hn

end Hdl
end Ikf
