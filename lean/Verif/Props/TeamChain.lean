import Verif.Spec.Contact
import Verif.Props.Team
import Verif.Props.TeamExamples

/-! # Property C106: participants that change from one joint observation to the next -/

namespace Ikf
open Mat

/-- Every instance knows something of itself, and was last measured together with itself. -/
structure Contact.Self (k : Contact) : Prop where
  linked : ∀ p, k.linked p p
  together : ∀ p, k.together p p

theorem Contact.Self.meet {k : Contact} (hk : k.Self) (D : List ℕ) : (k.meet D).Self := by
  refine ⟨fun p => Or.inl (hk.linked p), fun p => ?_⟩
  by_cases hp : p ∈ D
  · exact Or.inl ⟨hp, hp⟩
  · exact Or.inr ⟨hp, hp, hk.together p⟩

theorem Contact.groups_self (grp : ℕ → ℕ) : (Contact.groups grp).Self := ⟨fun _ => rfl, fun _ => rfl⟩

namespace Hdl

variable {fp : FP} {near : Mat → Mat} {pred : ℕ → Inst → Int → Inst × Bool} {dim : ℕ → ℕ} {h h' : Hdl} {c c' : Central}
  {grp : ℕ → ℕ} {ids : Finset ℕ} {k : Contact}

/-- The calls: propagations with a covariance `Q`, private observations with a noise covariance, joint observations of any instances. -/
def AnyEv : Ev → Prop
  | .propKF _ _ Q _ _ => IsCovMat Q
  | .propEKF _ _ _ Q _ _ => IsCovMat Q
  | .privKF _ _ R _ _ cfg => NoiseOk R cfg
  | .privEKF _ _ R _ _ cfg => NoiseOk R cfg
  | .jointR .. => True
  | .jointZ .. => True
  | .propBel .. => False
  | .setCov .. => False

/-- What is kept: instances that are not linked are not correlated, and instances of which those that are linked were last measured together have a covariance
taken together. -/
structure TeamChain (dim : ℕ → ℕ) (ids : Finset ℕ) (k : Contact) (c : Central) : Prop where
  self : k.Self
  cov : ∀ X ⊆ ids, (∀ p ∈ X, ∀ q ∈ X, k.Clean p q) → TeamCov dim X c.cov
  apart : ∀ p ∈ ids, ∀ q ∈ ids, ¬ k.linked p q → ∀ i j, (c.cov p q).e i j = 0
  free : ∀ p ∈ ids, c.fix p = false

theorem TeamChain.single (hi : TeamChain dim ids k c) {p : ℕ} (hp : p ∈ ids) : TeamCov dim {p} c.cov := by
  refine hi.cov {p} (by simpa using hp) fun a ha b hb _ => ?_
  rw [Finset.mem_singleton.mp ha, Finset.mem_singleton.mp hb]
  exact hi.self.together p

theorem TeamChain.transform (hi : TeamChain dim ids k c) (hs : ∀ p ∈ ids, ∀ q ∈ ids, (c.cov p q).Shape (dim p) (dim q)) {id : ℕ} {F m P : Mat}
    {t : Int} (hP : id ∈ ids → ∀ x : ℕ → ℝ, bil (F * c.cov id id * F.tr) (dim id) (dim id) x x ≤ bil P (dim id) (dim id) x x) :
    TeamChain dim ids k (c.transform id F m P t (c.fix id)) := by
  refine ⟨hi.self, fun X hX hcl => (hi.cov X hX hcl).transform (fun p hp q hq => hs p (hX hp) q (hX hq)) fun hid => hP (hX hid), fun p hp q hq hg i j => ?_, fun p hp => ?_⟩
  · simp only [Central.transform]
    split
    · rename_i e; exact absurd (by rw [e.1, e.2]; exact hi.self.linked id) hg
    · split
      · rw [mul_e]; exact Finset.sum_eq_zero fun k _ => by rw [hi.apart p hp q hq hg, mul_zero]
      · split
        · rw [mul_e]; exact Finset.sum_eq_zero fun k _ => by rw [hi.apart p hp q hq hg, zero_mul]
        · exact hi.apart p hp q hq hg i j
  · simp only [Central.transform]
    split
    · rename_i e; rw [← e]; exact hi.free p hp
    · exact hi.free p hp

theorem TeamChain.joint (hi : TeamChain dim ids k c) {dH : SMap Mat} (hd : dH.Sorted) {P dx : Mat} (hP : IsCovMat P) :
    TeamChain dim ids (k.meet dH.keys) (c.joint (participants dim c dH) P dx) := by
  classical
  have mem : ∀ p ∈ ids, (p ∈ (participants dim c dH).map (·.1) ↔ p ∈ dH.keys) := by
    intro p hp
    unfold participants
    rw [List.map_map]
    constructor
    · intro h
      obtain ⟨x, hx, rfl⟩ := List.mem_map.mp h
      exact (List.mem_filter.mp hx).1
    · intro h
      exact List.mem_map.mpr ⟨p, List.mem_filter.mpr ⟨h, by rw [hi.free p hp]; rfl⟩, rfl⟩
  obtain ⟨f1, f2⟩ := part_facts (dim := dim) hd (fun p => !c.fix p)
  set bs := participants dim c dH with hbs
  refine ⟨hi.self.meet _, fun X hX hcl => ?_, fun p hp q hq hne i j => ?_, fun p hp => hi.free p hp⟩
  · have hz : ∀ p ∈ X, ∀ q ∈ X, p ∈ bs.map (·.1) → q ∉ bs.map (·.1) → ∀ i j, (c.cov p q).e i j = 0 ∧ (c.cov q p).e i j = 0 := by
      intro p hp q hq h1 h2 i j
      rw [mem p (hX hp)] at h1
      rw [mem q (hX hq)] at h2
      refine ⟨hi.apart p (hX hp) q (hX hq) (fun e => ?_) i j, hi.apart q (hX hq) p (hX hp) (fun e => ?_) i j⟩
      · rcases hcl p hp q hq (Or.inl e) with h3 | h3
        · exact h2 h3.2
        · exact h3.1 h1
      · rcases hcl q hq p hp (Or.inl e) with h3 | h3
        · exact h2 h3.1
        · exact h3.2.1 h1
    intro x
    rw [joint_form (bs := bs) f1 f2 hz]
    refine add_nonneg (hP.bil _ _) ?_
    set B := (bs.map (·.1)).toFinset with hB
    have hsub : X \ B ⊆ X := Finset.sdiff_subset
    have h1 : TeamCov dim (X \ B) c.cov := by
      refine hi.cov _ (hsub.trans hX) fun p hp q hq e => ?_
      obtain ⟨hp, hpB⟩ := Finset.mem_sdiff.mp hp
      obtain ⟨hq, -⟩ := Finset.mem_sdiff.mp hq
      rcases hcl p hp q hq (Or.inl e) with h3 | h3
      · exact absurd (List.mem_toFinset.mpr ((mem p (hX hp)).mpr h3.1)) hpB
      · exact h3.2.2
    refine (h1 x).trans (le_of_eq ?_)
    have out : ∀ p ∈ X, p ∉ X \ B → p ∈ B := fun p hp hn => by
      by_contra hb
      exact hn (Finset.mem_sdiff.mpr ⟨hp, hb⟩)
    refine (Finset.sum_congr rfl fun p hp => ?_).trans (Finset.sum_subset hsub fun p hp hn => ?_)
    · refine (Finset.sum_congr rfl fun q hq => ?_).trans (Finset.sum_subset hsub fun q hq hn => ?_)
      · simp only [if_neg (Finset.mem_sdiff.mp hp).2, if_neg (Finset.mem_sdiff.mp hq).2]
      · exact bil_zero_right _ _ _ _ fun i => if_pos (out q hq hn)
    · exact Finset.sum_eq_zero fun q _ => bil_zero_left _ _ _ (fun i => if_pos (out p hp hn)) _
  · have hne' : ¬ k.linked p q := fun e => hne (Or.inl e)
    simp only [Central.joint]
    split
    · rename_i e
      exact absurd (Or.inr ⟨⟨p, (mem p hp).mp e.1, hi.self.linked p⟩, q, (mem q hq).mp e.2, hi.self.linked q⟩) hne
    · split
      · rw [mul_e]; exact Finset.sum_eq_zero fun k _ => by rw [hi.apart p hp q hq hne', mul_zero]
      · split
        · rw [mul_e]; exact Finset.sum_eq_zero fun k _ => by rw [hi.apart p hp q hq hne', zero_mul]
        · exact hi.apart p hp q hq hne' i j

theorem TeamChain.step (hn : NearCov near) (hr : Rel dim h c) (hr' : Rel dim h' c') (hreg : ∀ p ∈ ids, (h.find p).isSome) (hreg' : ∀ p ∈ ids, (h'.find p).isSome)
    {ev : Ev} (hw : Wf dim h ev) (he : AnyEv ev) (st : SpecStep dim near c ev c') (hi : TeamChain dim ids k c) : TeamChain dim ids (k.after (ev, true)) c' := by
  have hs : ∀ p ∈ ids, ∀ q ∈ ids, (c.cov p q).Shape (dim p) (dim q) := fun p hp q hq => hr.covS p q (hreg p hp) (hreg q hq)
  have own : ∀ p ∈ ids, IsCovMat (c.cov p p) := fun p hp =>
    (hi.single hp).own (Finset.mem_singleton_self p) (hs p hp p hp) (hr.symm p p (hreg p hp) (hreg p hp))
  have prop : ∀ (id : ℕ) (Phi Q m : Mat) (t : Int), IsCovMat Q → Rel dim h' (c.transform id Phi m (Phi * c.cov id id * Phi.tr + Q) t (c.fix id)) →
      TeamChain dim ids k (c.transform id Phi m (Phi * c.cov id id * Phi.tr + Q) t (c.fix id)) := by
    intro id Phi Q m t hQ hr'
    refine hi.transform hs fun hid x => ?_
    have h1 := hr'.covS id id (hreg' id hid) (hreg' id hid)
    simp only [Central.transform] at h1
    rw [if_pos ⟨trivial, trivial⟩] at h1
    rw [bil_add (A := Phi * c.cov id id * Phi.tr) ⟨h1.1, h1.2⟩]
    linarith [hQ.bil (dim id) x]
  have priv : ∀ (id : ℕ) (H R r m : Mat) (t : Int) (cfg : Cfg) (res : CorrRes), NoiseOk R cfg → correctionStep H R r (c.cov id id) cfg = .ok res →
      res.rejected = false → TeamChain dim ids k (c.transform id (one (dim id) - gainM H R (c.cov id id) cfg.eps * H) m res.Sapos t (c.fix id)) := by
    intro id H R r m t cfg res hR hc hrj
    refine hi.transform hs fun hid x => ?_
    obtain ⟨hO, -⟩ := Inst.correctionStep_accept (hs id hid id hid) cfg res hc hrj
    exact priv_grow hO (own id hid) hR hc x
  have joint : ∀ (dH : SMap Mat) (H R r S : Mat) (cfg : Cfg) (res : CorrRes), dH.Sorted →
      StackedCov (participants dim c dH) c.cov S → correctionStep H R r (stabM S (1 / 10^12)) cfg = .ok res → res.rejected = false →
      TeamChain dim ids (k.meet dH.keys) (c.joint (participants dim c dH) (Hdl.fixPsd near res.Sapos) res.dx) := by
    intro dH H R r S cfg res hd hS hc hrj
    obtain ⟨hO, hres⟩ := Inst.correctionStep_accept (hS.1.stabM _) cfg res hc hrj
    have h1 : res.Sapos.Shape (tot (participants dim c dH)) (tot (participants dim c dH)) := by rw [hres]; exact postM_shape hO cfg
    have h2 : res.Sapos.tr = res.Sapos := by rw [hres]; exact postM_symm hO cfg
    exact hi.joint hd (fixPsd_cov hn h1 h2).2
  cases st with
  | propKF id Phi Q ta tb => exact prop id Phi Q _ tb he hr'
  | propEKF id mb Phi Q ta tb => exact prop id Phi Q _ tb he hr'
  | propBel => exact he.elim
  | privKF id H R z t cfg res hc hrj => exact priv id H R _ _ t cfg res he hc hrj
  | privEKF id H R r t cfg res hc hrj => exact priv id H R _ _ t cfg res he hc hrj
  | setCov => exact he.elim
  | jointR dH R r t cfg H S res hH hS hc hrj => exact joint dH H R _ S cfg res hw.1 hS hc hrj
  | jointZ dH z R t cfg H S m res hH hS hm hc hrj => exact joint dH H R _ S cfg res hw.1 hS hc hrj

theorem TeamChain.runs (hnear : NearOk near) (hn : NearCov near) (hr : Rel dim h c) (hreg : ∀ p ∈ ids, (h.find p).isSome) {l : List (Ev × Bool)}
    (hl : ∀ x ∈ l, AnyEv x.1) (hrun : Runs fp near pred dim h l h') (hi : TeamChain dim ids k c) :
    ∃ c', Rel dim h' c' ∧ TeamChain dim ids (l.foldl Contact.after k) c' := by
  induction hrun generalizing c k with
  | nil h => exact ⟨c, hr, hi⟩
  | @step h h1 h2 ev ans l hw hs _ ih =>
    have hl' : ∀ x ∈ l, AnyEv x.1 := fun x hx => hl x (List.mem_cons_of_mem _ hx)
    have hd := step_dom hr ev hw hs
    have hreg' : ∀ p ∈ ids, (h1.find p).isSome := fun p hp => sameDom_isSome hd (hreg p hp)
    cases ans with
    | true =>
      obtain ⟨c1, st, r1⟩ := accepted hnear hr ev hw hs
      exact ih r1 hreg' hl' (hi.step hn hr r1 hreg hreg' hw (hl _ List.mem_cons_self) st)
    | false =>
      obtain rfl := rejected hr ev hw hs
      refine ih hr hreg hl' ?_
      have : k.after (ev, false) = k := by cases ev <;> rfl
      rw [this]
      exact hi

/-- C106 with changing participants: start in any reachable state with the team's instances at time `t`, none of them fixed, whose covariances `C` as read at `t`
are a covariance taken together and vanish between different groups. After any number of propagations, private observations and joint observations of any
instances, in any order, accepted or not, the covariances read at any time `t'` from instances `sub` of the team that are at `t'`, and in
which those that may know something of each other were last measured together - for instance from one instance, or from the participants of the last joint
observation - are a covariance taken together. -/
theorem c106_together_partial (hnear : NearOk near) (hn : NearCov near) (hreach : Reach fp near pred dim h) {t : Int} {C : ℕ → ℕ → Mat}
    (hN : ∀ p ∈ ids, Newest h p t) (hC : ∀ p ∈ ids, ∀ q ∈ ids, IsCov dim h p q t (C p q)) (hfree : ∀ p ∈ ids, fixedAt h t p = false)
    (hcov : TeamCov dim ids C) (hap : ∀ p ∈ ids, ∀ q ∈ ids, grp p ≠ grp q → ∀ i j, (C p q).e i j = 0)
    {l : List (Ev × Bool)} (hl : ∀ x ∈ l, AnyEv x.1) (hrun : Runs fp near pred dim h l h') {t' : Int} {sub : Finset ℕ} (hsub : sub ⊆ ids)
    (hcl : ∀ p ∈ sub, ∀ q ∈ sub, p ≠ q → (l.foldl Contact.after (Contact.groups grp)).Clean p q)
    (hN' : ∀ p ∈ sub, Newest h' p t') : ∃ C', (∀ p ∈ sub, ∀ q ∈ sub, IsCov dim h' p q t' (C' p q)) ∧ TeamCov dim sub C' := by
  obtain ⟨c, hr⟩ := hreach.rel hnear
  have eC : ∀ p ∈ ids, ∀ q ∈ ids, c.cov p q = C p q := fun p hp q hq => (hr.isCov (hN p hp) (hN q hq)).unique (hC p hp q hq)
  have hi : TeamChain dim ids (Contact.groups grp) c := by
    refine ⟨Contact.groups_self grp, fun X hX _ => (hcov.congr eC).subset hX, fun p hp q hq hg i j => by rw [eC p hp q hq]; exact hap p hp q hq hg i j, fun p hp => ?_⟩
    obtain ⟨h1, h2⟩ := (hN p hp).rel hr
    obtain ⟨b, hb, -, -, -, h5⟩ := hr.bel p h1
    rw [h2] at hb
    have := hfree p hp
    have hb' : belief h p t = some b := hb
    unfold fixedAt at this
    rw [hb'] at this
    rw [← h5]; exact this
  obtain ⟨c', hr', hi'⟩ := hi.runs hnear hn hr (fun p hp => ((hN p hp).rel hr).1) hl hrun
  refine ⟨c'.cov, fun p hp q hq => hr'.isCov (hN' p hp) (hN' q hq), hi'.cov sub hsub fun p hp q hq => ?_⟩
  by_cases e : p = q
  · rw [← e]; exact fun _ => hi'.self.together p
  · exact hcl p hp q hq e

/-- The premises are met where the covariances of all three are not a covariance (`c106_team_fails`): after the difference of 1 and 3 and then that of 1 and 2 is
observed, the covariances of 1 and 2, the participants of the last observation, are a covariance taken together, and so is the one of 3. -/
example : ∃ l h', Runs FP.exact Example.near Example.pred Example.dim TeamEx.h3 l h' ∧ (∀ x ∈ l, x.2 = true) ∧
    (∀ C : ℕ → ℕ → Mat, (∀ p ∈ ({1, 2, 3} : Finset ℕ), ∀ q ∈ ({1, 2, 3} : Finset ℕ), IsCov Example.dim h' p q 0 (C p q)) → ¬ TeamCov Example.dim {1, 2, 3} C) ∧
    ∀ sub : Finset ℕ, sub = {1, 2} ∨ sub = {3} → ∃ C', (∀ p ∈ sub, ∀ q ∈ sub, IsCov Example.dim h' p q 0 (C' p q)) ∧ TeamCov Example.dim sub C' := by
  obtain ⟨l, h', h1, h2, h3, h4, h5⟩ := TeamEx.c106_team_fails
  refine ⟨l, h', h1, h2, h5, fun sub hsub => ?_⟩
  have mem : ∀ p ∈ ({1, 2, 3} : Finset ℕ), p = 1 ∨ p = 2 ∨ p = 3 := fun p hp => by simpa using hp
  have nn : ∀ p ∈ ({1, 2, 3} : Finset ℕ), Newest TeamEx.h3 p 0 := fun p hp => TeamEx.newest3 (mem p hp)
  have hin : sub ⊆ {1, 2, 3} := by rcases hsub with rfl | rfl <;> decide
  have hl : l = [(TeamEx.ob 1 3 1 (-1) (1 / 10), true), (TeamEx.ob 1 2 1 (-1) (1 / 10), true)] := by
    match l, h2, h3 with
    | [(a, x), (b, y)], h2, h3 =>
      simp only [List.map_cons, List.map_nil, List.cons.injEq, and_true] at h3
      have hx : x = true := h2 (a, x) (by simp)
      have hy : y = true := h2 (b, y) (by simp)
      rw [hx, hy, h3.1, h3.2]
  refine c106_together_partial (grp := fun p => p) (ids := {1, 2, 3}) Example.nearOk Example.near_cov TeamEx.reach3 nn (fun p hp q hq => TeamEx.init3.rel.isCov (nn p hp) (nn q hq))
    (fun p hp => ?_) (fun x => ?_) (fun p _ q _ hne i j => ?_) (l := l) (fun x hx => ?_) h1 hin (fun p hp q hq hne e => ?_) fun p hp => h4 p (mem p (hin hp))
  · rcases mem p hp with rfl | rfl | rfl <;> rfl
  · refine Finset.sum_nonneg fun p _ => Finset.sum_nonneg fun q _ => ?_
    show 0 ≤ bil (TeamEx.c3.cov p q) 1 1 (x p) (x q)
    rw [TeamEx.bil1]
    simp only [TeamEx.c3]
    by_cases e : p = q
    · rw [if_pos e, e]
      have : (Example.s 1).e 0 0 = 1 := rfl
      rw [this]
      nlinarith [sq_nonneg (x q 0)]
    · rw [if_neg e]
      simp [Mat.zero, Mat.of]
  · simp only [TeamEx.c3]
    rw [if_neg hne]
    simp [Mat.zero, Mat.of]
  · rw [hl] at hx
    simp only [List.mem_cons, List.not_mem_nil, or_false] at hx
    rcases hx with rfl | rfl <;> trivial
  · rw [hl]
    rcases hsub with rfl | rfl
    · simp only [Finset.mem_insert, Finset.mem_singleton] at hp hq
      refine Or.inl ?_
      simp only [SMap.keys, List.map_cons, List.map_nil, List.mem_cons, List.not_mem_nil, or_false]
      exact ⟨hp, hq⟩
    · simp only [Finset.mem_singleton] at hp hq
      exact absurd (hp.trans hq.symm) hne

end Hdl
end Ikf
