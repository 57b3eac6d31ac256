import Verif.Lemmas.Joint

/-! # What the steps of a joint observation leave alone, whatever the sizes of the matrices -/

namespace Ikf
open Mat
namespace Hdl

/-- The belief history of an instance. -/
def bels (h : Hdl) (p : ℕ) : Option (Buf Belief) := (h.find p).map (·.bel)

theorem get_eq_ok {h : Hdl} {p : ℕ} {i : Inst} (hg : get h p = .ok i) : h.find p = some i := by
  unfold get at hg
  split at hg
  · rename_i j hj; rw [hj, Res.ok.inj hg]
  · simp at hg

theorem bind_eq_ok {α β : Type _} {x : Res α} {f : α → Res β} {y : β} (h : (x >>= f) = .ok y) : ∃ a, x = .ok a ∧ f a = .ok y := by
  cases x with
  | ok a => exact ⟨a, rfl, h⟩
  | throws => simp at h
  | ub => simp at h

theorem bels_set {h : Hdl} {p : ℕ} {i j : Inst} (hf : h.find p = some i) (hb : j.bel = i.bel) (q : ℕ) :
    bels (h.set p j) q = bels h q := by
  unfold bels
  rw [SMap.find_set]
  split
  · rename_i hpq; rw [← hpq, hf]; simp [hb]
  · rfl

theorem sameDom_of_bels {h h' : Hdl} (hb : ∀ q, bels h' q = bels h q) : SameDom h h' := by
  intro p
  have := congrArg Option.isSome (hb p)
  simpa [bels] using this

theorem setSigma_bels {h h' : Hdl} {I J : ℕ} {S : Mat} {t : Int} (hs : setSigma h I J S t = .ok h') (q : ℕ) : bels h' q = bels h q := by
  unfold setSigma at hs
  split at hs
  · obtain ⟨i, hi, hs⟩ := bind_eq_ok hs
    obtain ⟨j, hj, hs⟩ := bind_eq_ok hs
    rw [← Res.ok.inj hs, bels_set (get_eq_ok hj) (Inst.setCCF_bel _ _ _ _), bels_set (get_eq_ok hi) (Inst.setCCF_bel _ _ _ _)]
  · obtain ⟨i, hi, hs⟩ := bind_eq_ok hs
    obtain ⟨j, hj, hs⟩ := bind_eq_ok hs
    rw [← Res.ok.inj hs, bels_set (get_eq_ok hj) (Inst.setCCF_bel _ _ _ _), bels_set (get_eq_ok hi) (Inst.setCCF_bel _ _ _ _)]

theorem addCorrection_bel {i j : Inst} {ta tb : Int} {F : Mat} (hs : i.addCorrection ta tb F = .ok j) : j.bel = i.bel := by
  unfold Inst.addCorrection at hs
  obtain ⟨x, hx, hs⟩ := bind_eq_ok hs
  rw [← Res.ok.inj hs]

theorem applyCorrectionSigma_bel {i j : Inst} {t : Int} {A B : Mat} (hs : i.applyCorrectionSigma t A B = .ok j) : j.bel = i.bel := by
  unfold Inst.applyCorrectionSigma at hs
  obtain ⟨x, hx, hs⟩ := bind_eq_ok hs
  obtain ⟨y, hy, hs⟩ := bind_eq_ok hs
  exact addCorrection_bel (ta := t) (tb := t) hs

theorem applyCorrections_bels {P : Mat} {t : Int} (d : SMap Belief) {row : ℕ} {h h' : Hdl} (hs : applyCorrections P t d row h = .ok h')
    (q : ℕ) : bels h' q = bels h q := by
  induction d generalizing row h with
  | nil => rw [Res.ok.inj hs]
  | cons e r ih =>
    rw [applyCorrections] at hs
    split at hs
    · obtain ⟨B, hB, hs⟩ := bind_eq_ok hs
      obtain ⟨i, hi, hs⟩ := bind_eq_ok hs
      obtain ⟨j, hj, hs⟩ := bind_eq_ok hs
      rw [ih hs, bels_set (get_eq_ok hi) (applyCorrectionSigma_bel hj)]
    · exact ih hs

theorem splitRow_bels {P : Mat} {t : Int} {I di row : ℕ} (r : List (ℕ × ℕ)) {col : ℕ} {h h' : Hdl} (hs : splitRow P t I di row r col h = .ok h')
    (q : ℕ) : bels h' q = bels h q := by
  induction r generalizing col h with
  | nil => rw [Res.ok.inj hs]
  | cons e r ih =>
    rw [splitRow] at hs
    obtain ⟨B, hB, hs⟩ := bind_eq_ok hs
    obtain ⟨h1, hh, hs⟩ := bind_eq_ok hs
    rw [ih hs, setSigma_bels hh]

theorem splitRows_bels {P : Mat} {t : Int} (r : List (ℕ × ℕ)) {row off : ℕ} {h h' : Hdl} (hs : splitRows P t r row off h = .ok h')
    (q : ℕ) : bels h' q = bels h q := by
  induction r generalizing row off h with
  | nil => rw [Res.ok.inj hs]
  | cons e r ih =>
    rw [splitRows] at hs
    obtain ⟨h1, hh, hs⟩ := bind_eq_ok hs
    rw [ih hs, splitRow_bels _ hh]

theorem splitRightUpper_bels {P : Mat} {t : Int} {d : SMap Belief} {h h' : Hdl} (hs : splitRightUpper P d t h = .ok h')
    (q : ℕ) : bels h' q = bels h q := by
  unfold splitRightUpper at hs
  simp only at hs
  split at hs
  · simp at hs
  · exact splitRows_bels _ hs q

theorem correctBeliefs_frame {P dx : Mat} {t : Int} (d : SMap Belief) {row : ℕ} {h h' : Hdl} (hs : correctBeliefs P dx t d row h = .ok h') :
    SameDom h h' ∧ ∀ q, q ∉ (unfixed d).map (·.1) → h'.find q = h.find q := by
  induction d generalizing row h with
  | nil => rw [Res.ok.inj hs]; exact ⟨SameDom.refl _, fun _ _ => rfl⟩
  | cons e r ih =>
    rw [correctBeliefs] at hs
    split at hs
    · rename_i hf
      have hf' : e.2.fixed = false := by simpa using hf
      obtain ⟨B, hB, hs⟩ := bind_eq_ok hs
      obtain ⟨x, hx, hs⟩ := bind_eq_ok hs
      obtain ⟨b, hb, hs⟩ := bind_eq_ok hs
      obtain ⟨i, hi, hs⟩ := bind_eq_ok hs
      obtain ⟨d1, f1⟩ := ih hs
      refine ⟨(sameDom_set1 (get_eq_ok hi)).trans d1, ?_⟩
      intro q hq
      rw [unfixed_cons_pos e r hf'] at hq
      simp only [List.map_cons, List.mem_cons, not_or] at hq
      rw [f1 q hq.2, SMap.find_set, if_neg (fun x => hq.1 x.symm)]
    · rename_i hf
      have hf' : e.2.fixed = true := by simpa using hf
      obtain ⟨d1, f1⟩ := ih hs
      refine ⟨d1, ?_⟩
      intro q hq
      rw [unfixed_cons_neg e r hf'] at hq
      exact f1 q hq

theorem commit_frame {P dx : Mat} {t : Int} {d : SMap Belief} {h h' : Hdl} (hs : commit h d P dx t = .ok h') :
    SameDom h h' ∧ ∀ q, q ∉ (unfixed d).map (·.1) → bels h' q = bels h q := by
  unfold commit at hs
  obtain ⟨h1, e1, hs⟩ := bind_eq_ok hs
  obtain ⟨h2, e2, hs⟩ := bind_eq_ok hs
  obtain ⟨d3, f3⟩ := correctBeliefs_frame d hs
  have b2 : ∀ q, bels h2 q = bels h q := fun q => by rw [splitRightUpper_bels e2, applyCorrections_bels _ e1]
  refine ⟨(sameDom_of_bels b2).trans d3, fun q hq => ?_⟩
  rw [← b2 q]
  unfold bels
  rw [f3 q hq]

theorem correctJoint_frame {near : Mat → Mat} {d : SMap Belief} {H R r S : Mat} {t : Int} {cfg : Cfg} {h h' : Hdl} {ans : Bool}
    (hs : correctJoint near h d H R r S t cfg = .ok (h', ans)) :
    SameDom h h' ∧ (∀ q, q ∉ (unfixed d).map (·.1) → bels h' q = bels h q) ∧ (ans = false → h' = h) := by
  unfold correctJoint at hs
  obtain ⟨res, hres, hs⟩ := bind_eq_ok hs
  split at hs
  · obtain ⟨h1, e1, hs⟩ := bind_eq_ok hs
    obtain ⟨x1, x2⟩ := Prod.mk.inj (Res.ok.inj hs)
    subst x1
    obtain ⟨d1, f1⟩ := commit_frame e1
    exact ⟨d1, f1, fun h0 => by rw [← x2] at h0; simp at h0⟩
  · obtain ⟨x1, -⟩ := Prod.mk.inj (Res.ok.inj hs)
    subst x1
    exact ⟨SameDom.refl _, fun _ _ => rfl, fun _ => rfl⟩

/-- `get_dict_bel` only touches participants without a belief at `t`. -/
theorem getDictBel_frame {pred : ℕ → Inst → Int → Inst × Bool} {t : Int} (ids : List ℕ) {h : Hdl} {acc : SMap Belief} {x : Hdl × SMap Belief}
    (hs : getDictBel pred h ids t acc = .ok x) :
    SameDom h x.1 ∧
      (∀ q, (q ∉ ids ∨ ∃ i, h.find q = some i ∧ i.bel.existAt t = true) → x.1.find q = h.find q) ∧
      (∀ e ∈ x.2, e ∈ acc ∨ e.1 ∈ ids ∧ ∃ i, x.1.find e.1 = some i ∧ i.beliefAt t = some e.2) := by
  induction ids generalizing h acc with
  | nil =>
    rw [← Res.ok.inj hs]
    exact ⟨SameDom.refl _, fun _ _ => rfl, fun e he => Or.inl he⟩
  | cons id r ih =>
    rw [getDictBel] at hs
    obtain ⟨y, hy, hs⟩ := bind_eq_ok hs
    unfold beliefPredict at hy
    obtain ⟨i, hi, hy⟩ := bind_eq_ok hy
    have hfi := get_eq_ok hi
    -- the step
    have step : SameDom h y.1 ∧ (∀ q, (q ≠ id ∨ ∃ i, h.find q = some i ∧ i.bel.existAt t = true) → y.1.find q = h.find q) ∧
        (∀ b, y.2 = some b → ∃ j, y.1.find id = some j ∧ j.beliefAt t = some b) := by
      split at hy
      · rw [← Res.ok.inj hy]
        exact ⟨SameDom.refl _, fun _ _ => rfl, fun b hb => ⟨i, hfi, hb⟩⟩
      · rename_i hne
        rw [← Res.ok.inj hy]
        refine ⟨sameDom_set1 hfi, ?_, ?_⟩
        · intro q hq
          simp only
          rw [SMap.find_set]
          split
          · rename_i hq'
            subst hq'
            rcases hq with hq | ⟨j, hj, hj2⟩
            · exact absurd rfl hq
            · rw [hfi] at hj; rw [Option.some.inj hj] at hne; exact absurd hj2 hne
          · rfl
        · intro b hb
          simp only at hb
          refine ⟨(pred id i t).1, by simp only; rw [SMap.find_set_self], ?_⟩
          split at hb
          · exact hb
          · simp at hb
    obtain ⟨s1, s2, s3⟩ := step
    cases hy2 : y.2 with
    | none =>
      rw [hy2] at hs
      rw [← Res.ok.inj hs]
      refine ⟨s1, fun q hq => s2 q ?_, by simp⟩
      rcases hq with hq | hq
      · exact Or.inl (fun e => hq (by rw [e]; exact List.mem_cons_self))
      · exact Or.inr hq
    | some b =>
      rw [hy2] at hs
      obtain ⟨j, hj1, hj2⟩ := s3 b hy2
      obtain ⟨i1, i2, i3⟩ := ih hs
      have hex : j.bel.existAt t = true := by
        unfold Inst.beliefAt at hj2
        obtain ⟨e, he, -⟩ := Option.map_eq_some_iff.mp hj2
        rw [Buf.existAt_iff]
        unfold Buf.getAt at he
        exact ⟨e, List.mem_of_find?_eq_some he, by simpa using List.find?_some he⟩
      refine ⟨s1.trans i1, ?_, ?_⟩
      · intro q hq
        have hq1 : q ≠ id ∨ ∃ i, h.find q = some i ∧ i.bel.existAt t = true := by
          rcases hq with hq | hq
          · exact Or.inl (fun e => hq (by rw [e]; exact List.mem_cons_self))
          · exact Or.inr hq
        have e1 := s2 q hq1
        rw [← e1]
        apply i2
        rcases hq with hq | ⟨k, hk1, hk2⟩
        · exact Or.inl (fun e => hq (List.mem_cons_of_mem _ e))
        · exact Or.inr ⟨k, by rw [e1]; exact hk1, hk2⟩
      · intro e he
        rcases i3 e he with hacc | ⟨h1, h2⟩
        · -- in the accumulator
          by_cases hea : e ∈ acc
          · exact Or.inl hea
          · right
            unfold SMap.emplace at hacc
            split at hacc
            · exact absurd hacc hea
            · rcases SMap.mem_set _ _ _ _ hacc with rfl | h3
              · refine ⟨List.mem_cons_self, j, ?_, hj2⟩
                simp only
                rw [i2 id (Or.inr ⟨j, hj1, hex⟩)]; exact hj1
              · exact absurd h3 hea
        · exact Or.inr ⟨List.mem_cons_of_mem _ h1, h2⟩

end Hdl
end Ikf
