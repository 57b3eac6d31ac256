import Verif.Model.Correlated
import Verif.Lemmas.Restart
import Verif.Lemmas.Collab

/-! # Which pairs of instances get cross-covariance factors -/

namespace Ikf
open Mat

namespace Hdl
variable {P : Type _} {fp : FP} {near : Mat → Mat} {U : EkfUser P}

/-- `a` has a history of factors towards `b`. -/
def Tie (h : Hdl) (a b : ℕ) : Prop := ∃ i, h.find a = some i ∧ (i.ccf.find b).isSome

/-- The pairs of `h'` are those of `h` and some new ones, both ways, out of `E`. -/
def Grow (E : ℕ → ℕ → Prop) (h h' : Hdl) : Prop :=
  ∃ N : ℕ → ℕ → Prop, (∀ a b, N a b → N b a) ∧ (∀ a b, N a b → E a b) ∧ ∀ a b, Tie h' a b ↔ Tie h a b ∨ N a b

variable {E : ℕ → ℕ → Prop} {h h' : Hdl}

theorem Grow.same (hs : ∀ a b, Tie h' a b ↔ Tie h a b) : Grow E h h' := ⟨fun _ _ => False, by simp, by simp, by simpa using hs⟩

theorem Grow.refl (h : Hdl) : Grow E h h := .same fun _ _ => Iff.rfl

theorem Grow.trans {h1 h2 : Hdl} (a : Grow E h h1) (b : Grow E h1 h2) : Grow E h h2 := by
  obtain ⟨N, s, e, t⟩ := a
  obtain ⟨N', s', e', t'⟩ := b
  refine ⟨fun x y => N x y ∨ N' x y, fun x y hx => hx.imp (s x y) (s' x y), fun x y hx => hx.elim (e x y) (e' x y), fun x y => ?_⟩
  rw [t', t, or_assoc]

theorem Grow.mono {E' : ℕ → ℕ → Prop} (a : Grow E h h') (he : ∀ x y, E x y → E' x y) : Grow E' h h' := by
  obtain ⟨N, s, e, t⟩ := a
  exact ⟨N, s, fun x y hx => he x y (e x y hx), t⟩

theorem Grow.set {p : ℕ} {i j : Inst} (hi : h.find p = some i) (hj : ∀ q, (j.ccf.find q).isSome = (i.ccf.find q).isSome) : Grow E h (h.set p j) := by
  refine .same fun a b => ?_
  unfold Tie
  rw [SMap.find_set]
  by_cases hp : p = a
  · subst hp
    simp [hi, hj]
  · rw [if_neg hp]

theorem Grow.mapV (f : Inst → Inst) (hf : ∀ (i : Inst) q, ((f i).ccf.find q).isSome = (i.ccf.find q).isSome) : Grow E h (h.mapV f) := by
  refine .same fun a b => ?_
  unfold Tie
  rw [SMap.find_mapV]
  cases h.find a with
  | none => simp
  | some i => simp [hf]

theorem mulFac_tie (i : Inst) (ta tb : Int) (F : Mat) (q : ℕ) : ((i.mulFac ta tb F).ccf.find q).isSome = (i.ccf.find q).isSome := by
  rw [Inst.find_mulFac, Option.isSome_map]

theorem setCCF_tie (i : Inst) (t : Int) (J : ℕ) (M : Mat) (q : ℕ) : ((i.setCCF t J M).ccf.find q).isSome = true ↔ q = J ∨ (i.ccf.find q).isSome = true := by
  rw [Inst.find_setCCF]
  by_cases hq : J = q
  · subst hq; simp
  · rw [if_neg hq]; simp [Ne.symm hq]

theorem tie_setCCF {p : ℕ} {i : Inst} (hi : h.find p = some i) (t : Int) (J : ℕ) (M : Mat) (a b : ℕ) :
    Tie (h.set p (i.setCCF t J M)) a b ↔ Tie h a b ∨ (a = p ∧ b = J) := by
  unfold Tie
  rw [SMap.find_set]
  by_cases hp : p = a
  · subst hp
    simp only [if_true, Option.some.injEq, exists_eq_left', setCCF_tie, hi, true_and]
    exact or_comm
  · rw [if_neg hp]
    simp [Ne.symm hp]

theorem Grow.setSigma {I J : ℕ} {S : Mat} {t : Int} (h1 : E I J) (h2 : E J I) (hs : Hdl.setSigma h I J S t = .ok h') : Grow E h h' := by
  refine ⟨fun a b => (a = I ∧ b = J) ∨ (a = J ∧ b = I), by tauto, ?_, ?_⟩
  · rintro a b (⟨rfl, rfl⟩ | ⟨rfl, rfl⟩)
    · exact h1
    · exact h2
  · intro a b
    unfold Hdl.setSigma at hs
    split at hs
    · obtain ⟨i, hi, hs⟩ := bind_eq_ok hs
      obtain ⟨j, hj, hs⟩ := bind_eq_ok hs
      rw [← Res.ok.inj hs, tie_setCCF (get_eq_ok hj), tie_setCCF (get_eq_ok hi)]
      tauto
    · obtain ⟨i, hi, hs⟩ := bind_eq_ok hs
      obtain ⟨j, hj, hs⟩ := bind_eq_ok hs
      rw [← Res.ok.inj hs, tie_setCCF (get_eq_ok hj), tie_setCCF (get_eq_ok hi)]
      tauto

theorem Grow.applyCorrections {P : Mat} {t : Int} (d : SMap Belief) {row : ℕ} (hs : Hdl.applyCorrections P t d row h = .ok h') : Grow E h h' := by
  induction d generalizing row h with
  | nil => rw [← Res.ok.inj hs]; exact .refl _
  | cons e r ih =>
    rw [Hdl.applyCorrections] at hs
    split at hs
    · obtain ⟨B, _, hs⟩ := bind_eq_ok hs
      obtain ⟨i, hi, hs⟩ := bind_eq_ok hs
      obtain ⟨j, hj, hs⟩ := bind_eq_ok hs
      refine Grow.trans (Grow.set (get_eq_ok hi) fun q => ?_) (ih hs)
      unfold Inst.applyCorrectionSigma at hj
      obtain ⟨x, _, hj⟩ := bind_eq_ok hj
      obtain ⟨L, _, hj⟩ := bind_eq_ok hj
      rw [Inst.addCorrection_inv (i := i) (ta := t) (tb := t) (F := L) hj, mulFac_tie]
    · exact ih hs

theorem Grow.splitRow {P : Mat} {t : Int} {I di row : ℕ} (r : List (ℕ × ℕ)) {col : ℕ} (hE : ∀ e ∈ r, E I e.1 ∧ E e.1 I)
    (hs : Hdl.splitRow P t I di row r col h = .ok h') : Grow E h h' := by
  induction r generalizing col h with
  | nil => rw [← Res.ok.inj hs]; exact .refl _
  | cons e r ih =>
    obtain ⟨J, dj⟩ := e
    rw [Hdl.splitRow] at hs
    obtain ⟨B, _, hs⟩ := bind_eq_ok hs
    obtain ⟨h1, e1, hs⟩ := bind_eq_ok hs
    have := hE (J, dj) List.mem_cons_self
    exact (Grow.setSigma this.1 this.2 e1).trans (ih (fun e he => hE e (List.mem_cons_of_mem _ he)) hs)

theorem Grow.splitRows {P : Mat} {t : Int} (r : List (ℕ × ℕ)) {row o : ℕ} (hE : r.Pairwise fun a b => E a.1 b.1 ∧ E b.1 a.1)
    (hs : Hdl.splitRows P t r row o h = .ok h') : Grow E h h' := by
  induction r generalizing row o h with
  | nil => rw [← Res.ok.inj hs]; exact .refl _
  | cons e r ih =>
    obtain ⟨I, di⟩ := e
    rw [Hdl.splitRows] at hs
    obtain ⟨h1, e1, hs⟩ := bind_eq_ok hs
    obtain ⟨a, b⟩ := List.pairwise_cons.mp hE
    exact (Grow.splitRow r a e1).trans (ih b hs)

theorem Grow.correctBeliefs {P dx : Mat} {t : Int} (d : SMap Belief) {row : ℕ} (hs : Hdl.correctBeliefs P dx t d row h = .ok h') : Grow E h h' := by
  induction d generalizing row h with
  | nil => rw [← Res.ok.inj hs]; exact .refl _
  | cons e r ih =>
    rw [Hdl.correctBeliefs] at hs
    split at hs
    · obtain ⟨B, _, hs⟩ := bind_eq_ok hs
      obtain ⟨x, _, hs⟩ := bind_eq_ok hs
      obtain ⟨b, _, hs⟩ := bind_eq_ok hs
      obtain ⟨i, hi, hs⟩ := bind_eq_ok hs
      exact Grow.trans (Grow.set (j := i.setBelief b t) (get_eq_ok hi) fun q => rfl) (ih hs)
    · exact ih hs

theorem Grow.correctJoint {d : SMap Belief} (hd : d.Sorted) (hE : ∀ a b, a ≠ b → a ∈ d.keys → b ∈ d.keys → E a b) {H R r S : Mat} {t : Int} {cfg : Cfg} {ans : Bool}
    (hs : Hdl.correctJoint near h d H R r S t cfg = .ok (h', ans)) : Grow E h h' := by
  unfold Hdl.correctJoint at hs
  obtain ⟨res, _, hs⟩ := bind_eq_ok hs
  split at hs
  · obtain ⟨h1, e1, hs⟩ := bind_eq_ok hs
    obtain ⟨x1, -⟩ := Prod.mk.inj (Res.ok.inj hs)
    subst x1
    unfold Hdl.commit at e1
    obtain ⟨g1, c1, e1⟩ := bind_eq_ok e1
    obtain ⟨g2, c2, e1⟩ := bind_eq_ok e1
    unfold splitRightUpper at c2
    simp only at c2
    split at c2
    · simp at c2
    refine ((Grow.applyCorrections d c1).trans (Grow.splitRows _ ?_ c2)).trans (Grow.correctBeliefs d e1)
    rw [List.pairwise_map]
    have hu : (unfixed d).Pairwise fun a b => a.1 < b.1 := List.Pairwise.filter _ hd
    refine List.Pairwise.imp_of_mem ?_ hu
    intro a b ha hb hab
    have ha' : a.1 ∈ d.keys := List.mem_map_of_mem (List.mem_filter.mp ha).1
    have hb' : b.1 ∈ d.keys := List.mem_map_of_mem (List.mem_filter.mp hb).1
    exact ⟨hE _ _ hab.ne ha' hb', hE _ _ hab.ne' hb' ha'⟩
  · obtain ⟨x1, -⟩ := Prod.mk.inj (Res.ok.inj hs)
    subst x1
    exact .refl _

theorem getDict_sorted (ids : List ℕ) {t : Int} : ∀ {h : Hdl} {acc : SMap Belief} {x : Hdl × SMap Belief}, acc.Sorted →
    getDictBel noPredict h ids t acc = .ok x → x.2.Sorted ∧ Grow E h x.1 := by
  induction ids with
  | nil =>
    intro h acc x ha hs
    unfold getDictBel at hs
    rw [← Res.ok.inj hs]
    exact ⟨ha, .refl _⟩
  | cons id r ih =>
    intro h acc x ha hs
    unfold getDictBel at hs
    obtain ⟨y, e, hs⟩ := bind_eq_ok hs
    have hy : Grow E h y.1 := by
      unfold beliefPredict at e
      obtain ⟨i, ei, e⟩ := bind_eq_ok e
      split at e
      · rw [← Res.ok.inj e]; exact .refl _
      · rw [← Res.ok.inj e]; exact .set (get_eq_ok ei) fun _ => rfl
    split at hs
    · rw [← Res.ok.inj hs]
      exact ⟨List.Pairwise.nil, hy⟩
    · obtain ⟨a, b⟩ := ih (ha.emplace _ _) hs
      exact ⟨a, hy.trans b⟩

theorem Grow.applyObsR {dH : SMap Mat} (hE : ∀ a b, a ≠ b → a ∈ dH.keys → b ∈ dH.keys → E a b) {R r : Mat} {t : Int} {cfg : Cfg} {ans : Bool}
    (hs : Hdl.applyObsR near noPredict h dH R r t cfg = .ok (h', ans)) : Grow E h h' := by
  unfold Hdl.applyObsR at hs
  obtain ⟨H, -, hs⟩ := bind_eq_ok hs
  obtain ⟨x, e, hs⟩ := bind_eq_ok hs
  obtain ⟨a, b⟩ := getDict_sorted (E := E) _ List.Pairwise.nil e
  have hk : ∀ p ∈ x.2.keys, p ∈ dH.keys := by
    intro p hp
    obtain ⟨y, hy, rfl⟩ := List.mem_map.mp hp
    rcases Collab.getDictBel_keys _ e y hy with h | h
    · simp at h
    · exact h
  split at hs
  · obtain ⟨x1, -⟩ := Prod.mk.inj (Res.ok.inj hs)
    subst x1
    exact b
  · obtain ⟨S0, -, hs⟩ := bind_eq_ok hs
    obtain ⟨S, -, hs⟩ := bind_eq_ok hs
    exact b.trans (Grow.correctJoint a (fun p q hpq hp hq => hE p q hpq (hk p hp) (hk q hq)) hs)

theorem propEKF_tie {i j : Inst} {ba : Belief} {mb Phi Q : Mat} {ta tb : Int} {ans : Bool}
    (hs : i.propEKF fp ba mb Phi Q ta tb = .ok (j, ans)) (q : ℕ) : (j.ccf.find q).isSome = (i.ccf.find q).isSome := by
  unfold Inst.propEKF at hs
  obtain ⟨r, e1, hs⟩ := bind_eq_ok hs
  have hr : r.1.ccf = i.ccf := by
    unfold Inst.basePropEKF at e1
    split at e1
    · obtain ⟨Sb, -, e1⟩ := bind_eq_ok e1
      split at e1
      · simp only at e1
        split at e1 <;> rw [← Res.ok.inj e1] <;> rfl
      · rw [← Res.ok.inj e1]
    · rw [← Res.ok.inj e1]
  split at hs
  · obtain ⟨k, e2, hs⟩ := bind_eq_ok hs
    have := Inst.addCorrection_inv e2
    obtain ⟨x1, -⟩ := Prod.mk.inj (Res.ok.inj hs)
    subst x1 this
    unfold Inst.checkHorizon
    simp only
    rw [SMap.find_mapV, Option.isSome_map, mulFac_tie, hr]
  · obtain ⟨x1, -⟩ := Prod.mk.inj (Res.ok.inj hs)
    subst x1
    rw [hr]

theorem privEKF_tie {i j : Inst} {b : Belief} {t : Int} {H R r : Mat} {cfg : Cfg} {ans : Bool}
    (hs : i.privEKF b t H R r cfg = .ok (j, ans)) (q : ℕ) : (j.ccf.find q).isSome = (i.ccf.find q).isSome := by
  unfold Inst.privEKF at hs
  obtain ⟨res, -, hs⟩ := bind_eq_ok hs
  split at hs
  · obtain ⟨k, e2, hs⟩ := bind_eq_ok hs
    obtain ⟨b', -, hs⟩ := bind_eq_ok hs
    have := Inst.addCorrection_inv (i := i) (ta := b.stamp) (tb := b.stamp) (F := res.U) e2
    obtain ⟨x1, -⟩ := Prod.mk.inj (Res.ok.inj hs)
    subst x1 this
    exact mulFac_tie _ _ _ _ _
  · obtain ⟨x1, -⟩ := Prod.mk.inj (Res.ok.inj hs)
    subst x1
    rfl

theorem Grow.userStep (hU : ∀ (m : Meas P) ms n, m.kind = .joint → U.joint m.id m.data m.t ms = .ok n → ∀ a b, a ≠ b → a ∈ n.1.keys → b ∈ n.1.keys → E a b)
    {m : Meas P} {st : Status} (hs : Hdl.userStep fp near U h m = .ok (h', st)) : Grow E h h' := by
  unfold Hdl.userStep at hs
  split at hs
  · rename_i hk
    unfold userJoint at hs
    obtain ⟨ms, -, hs⟩ := bind_eq_ok hs
    obtain ⟨n, en, hs⟩ := bind_eq_ok hs
    obtain ⟨x, e, hs⟩ := bind_eq_ok hs
    obtain ⟨x1, -⟩ := Prod.mk.inj (Res.ok.inj hs)
    subst x1
    exact Grow.applyObsR (ans := x.2) (hU m ms n hk en) e
  · unfold userProp at hs
    obtain ⟨i, ei, hs⟩ := bind_eq_ok hs
    split at hs
    · cases hs
    · obtain ⟨n, -, hs⟩ := bind_eq_ok hs
      obtain ⟨x, e, hs⟩ := bind_eq_ok hs
      obtain ⟨x1, -⟩ := Prod.mk.inj (Res.ok.inj hs)
      subst x1
      exact .set (get_find ei) (propEKF_tie (ans := x.2) e)
  · unfold userPriv at hs
    obtain ⟨i, ei, hs⟩ := bind_eq_ok hs
    split at hs
    · obtain ⟨x1, -⟩ := Prod.mk.inj (Res.ok.inj hs)
      subst x1
      exact .refl _
    · obtain ⟨n, -, hs⟩ := bind_eq_ok hs
      obtain ⟨x, e, hs⟩ := bind_eq_ok hs
      obtain ⟨x1, -⟩ := Prod.mk.inj (Res.ok.inj hs)
      subst x1
      unfold privCall at e
      split at e
      · refine Grow.applyObsR (ans := x.2) ?_ e
        intro a b hab ha hb
        simp only [SMap.keys, List.map_cons, List.map_nil, List.mem_singleton] at ha hb
        exact absurd (ha.trans hb.symm) hab
      · obtain ⟨y, e2, e⟩ := bind_eq_ok e
        rw [← Res.ok.inj e]
        exact .set (get_find ei) (privEKF_tie (ans := y.2) e2)
  · obtain ⟨x1, -⟩ := Prod.mk.inj (Res.ok.inj hs)
    subst x1
    exact .refl _

theorem keeps_grow (hU : ∀ (m : Meas P) ms n, m.kind = .joint → U.joint m.id m.data m.t ms = .ok n → ∀ a b, a ≠ b → a ∈ n.1.keys → b ∈ n.1.keys → E a b)
    (h0 : Hdl) : Handler.Keeps (userInsts fp near U) (fun w => ∀ h, w = .ok h → Grow E h0 h) where
  inst := by
    intro w m hw h hh
    cases w with
    | ok g =>
      have hg := hw g rfl
      change (settle (.ok g) (Hdl.userStep fp near U g m)).1 = _ at hh
      unfold settle at hh
      simp only at hh
      cases hx : Hdl.userStep fp near U g m with
      | ok x =>
        rw [hx] at hh
        rw [← Res.ok.inj hh]
        exact hg.trans (Grow.userStep hU (st := x.2) hx)
      | throws => rw [hx] at hh; cases hh
      | ub => rw [hx] at hh; cases hh
    | throws => cases hh
    | ub => cases hh
  from_ := by
    intro w t hw h hh
    cases w with
    | ok g =>
      change Res.ok (removeBeliefsFrom g t) = _ at hh
      rw [← Res.ok.inj hh]
      refine (hw g rfl).trans (.mapV _ fun i q => ?_)
      split
      · unfold Inst.removeFrom
        simp only
        rw [SMap.find_mapV, Option.isSome_map]
      · rfl
    | throws => cases hh
    | ub => cases hh
  after := by
    intro w t hw h hh
    cases w with
    | ok g =>
      change Res.ok (removeBeliefsAfter g t) = _ at hh
      rw [← Res.ok.inj hh]
      refine (hw g rfl).trans (.mapV _ fun i q => ?_)
      split
      · unfold Inst.removeAfter
        simp only
        rw [SMap.find_mapV, Option.isSome_map]
      · rfl
    | throws => cases hh
    | ub => cases hh

end Hdl
end Ikf
