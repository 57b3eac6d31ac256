import Verif.Spec.HonestChain
import Verif.Props.HonestTeam
import Verif.Props.TeamChain

/-! # Property C116: participants that change from one joint measurement to the next -/

namespace Ikf
namespace Honest
open MeasureTheory Mat Hdl Contact

section
variable {Ω : Type} [MeasurableSpace Ω] {P : Measure Ω} {dim grp : ℕ → ℕ} {ids : Finset ℕ} {fp : FP} {near : Mat → Mat}
  {pred : ℕ → Inst → Int → Inst × Bool}

theorem Kept.mono {grp' : ℕ → ℕ} {sub : Finset ℕ} {o : Ω} {h : Ω → Hdl} {c : Ω → Central} {x : ℕ → RVec Ω} {l : List (ℕ × RVec Ω)}
    (hk : Kept P dim grp ids o h c x l) (hs : sub ⊆ ids) (hg : ∀ p ∈ sub, ∀ q ∈ sub, grp' p ≠ grp' q → grp p ≠ grp q) : Kept P dim grp' sub o h c x l :=
  ⟨hk.rel, fun ω p hp => hk.reg ω p (hs hp), fun ω p hp q hq => hk.same ω p (hs hp) q (hs hq),
    fun ω => ⟨(hk.team ω).cov.subset hs, fun p hp q hq hne => (hk.team ω).apart p (hs hp) q (hs hq) (hg p hp q hq hne), fun p hp => (hk.team ω).free p (hs hp)⟩,
    ⟨hk.inv.cov.subset hs, fun p hp q hq hne => hk.inv.apart p (hs hp) q (hs hq) (hg p hp q hq hne), fun ν hν p hp => hk.inv.later ν hν p (hs hp)⟩⟩

theorem Covers.congr {C D : ℕ → ℕ → Mat} {e f : ℕ → RVec Ω} (h : Covers P dim ids C e) (hc : ∀ p ∈ ids, ∀ q ∈ ids, D p q = C p q) (he : ∀ p ∈ ids, f p = e p) :
    Covers P dim ids D f := by
  refine ⟨fun p hp i hi => by rw [he p hp]; exact h.1 p hp i hi, fun y => le_trans (le_of_eq ?_) ((h.2 y).trans (le_of_eq ?_))⟩
  · unfold meanSq
    refine integral_congr_ae (Filter.Eventually.of_forall fun ω => ?_)
    simp only
    congr 1
    exact Finset.sum_congr rfl fun p hp => by rw [he p hp]
  · exact Finset.sum_congr rfl fun p hp => Finset.sum_congr rfl fun q hq => by rw [hc p hp q hq]

/-- A step that is about other instances. -/
theorem Kept.stay {o : Ω} {h h' : Ω → Hdl} {c c' : Ω → Central} {x x' : ℕ → RVec Ω} {ν : ℕ × RVec Ω} {l : List (ℕ × RVec Ω)}
    (hk : Kept P dim grp ids o h c x (ν :: l)) (hr' : ∀ ω, Rel dim (h' ω) (c' ω)) (hreg' : ∀ ω, ∀ p ∈ ids, ((h' ω).find p).isSome)
    (hc : ∀ ω, ∀ p ∈ ids, ∀ q ∈ ids, (c' ω).cov p q = (c ω).cov p q) (hm : ∀ ω, ∀ p ∈ ids, (c' ω).mu p = (c ω).mu p)
    (hf : ∀ ω, ∀ p ∈ ids, (c' ω).fix p = (c ω).fix p) (hx : ∀ p ∈ ids, x' p = x p) : Kept P dim grp ids o h' c' x' l := by
  have he : ∀ p ∈ ids, errs x' (fun ω => (c' ω).mu) p = errs x (fun ω => (c ω).mu) p := by
    intro p hp
    funext ω i
    simp only [errs, hm ω p hp, hx p hp]
  refine ⟨hr', hreg', fun ω p hp q hq => by rw [hc ω p hp q hq, hc o p hp q hq, hk.same ω p hp q hq], fun ω => ?_, ⟨hk.inv.cov.congr (hc o) he, ?_, ?_⟩⟩
  · exact ⟨(hk.team ω).cov.congr (hc ω), fun p hp q hq hne i j => by rw [hc ω p hp q hq]; exact (hk.team ω).apart p hp q hq hne i j,
      fun p hp => by rw [hf ω p hp]; exact (hk.team ω).free p hp⟩
  · intro p hp q hq hne
    rw [he p hp, he q hq]
    exact hk.inv.apart p hp q hq hne
  · intro μ hμ p hp
    rw [he p hp]
    exact hk.inv.later μ (List.mem_cons_of_mem _ hμ) p hp

/-- What is kept: every set of instances in which those that know something of each other were last measured together is covered. -/
def Chain (P : Measure Ω) (dim : ℕ → ℕ) (ids : Finset ℕ) (o : Ω) (k : Contact) (h : Ω → Hdl) (c : Ω → Central) (x : ℕ → RVec Ω) (l : List (ℕ × RVec Ω)) : Prop :=
  ∀ X ⊆ ids, ∀ grp : ℕ → ℕ, (∀ p ∈ X, ∀ q ∈ X, k.Clean p q) → (∀ p ∈ X, ∀ q ∈ X, k.linked p q → grp p = grp q) → Kept P dim grp X o h c x l

omit [MeasurableSpace Ω] in
theorem self_step {k : Contact} (hk : k.Self) (s : NStp Ω) : (s.contact k).Self := by
  cases s with
  | move id F Q ta tb w => exact hk
  | priv id H R t cfg v => exact hk
  | joint dH R t cfg v => exact hk.meet _

/-- One step with the filters after it given. -/
theorem Kept.step' (hn : NearCov near) {o : Ω} {h h' : Ω → Hdl} {c c' : Ω → Central} {x : ℕ → RVec Ω} {s : NStp Ω} {l : List (ℕ × RVec Ω)}
    (hk : Kept P dim grp ids o h c x (s.noise dim :: l)) (hv : s.Valid P dim grp ids)
    (hl : ∀ μ ∈ l, (∀ k < μ.1, (fun ω => μ.2 ω k) ∈ sq2 P) ∧ Uncorr P (s.noise dim) μ) (hw : ∀ ω, Wf dim (h ω) (s.call dim x ω))
    (hr' : ∀ ω, Rel dim (h' ω) (c' ω)) (hreg' : ∀ ω, ∀ p ∈ ids, ((h' ω).find p).isSome) (st : ∀ ω, SpecStep dim near (c ω) (s.call dim x ω) (c' ω)) :
    Kept P dim grp ids o h' c' (s.truth dim x) l := by
  have ht : ∀ ω, TeamInv dim grp ids (c' ω) := fun ω => (hk.team ω).step hn (hk.rel ω) (hr' ω) (hk.reg ω) (hreg' ω) (hw ω) (Valid.teamEv hv x ω) (st ω)
  cases s with
  | move id F Q ta tb w => exact hk.move hv hl hr' hreg' ht st
  | priv id H R t cfg v => exact hk.priv hv hl hr' hreg' ht st
  | joint dH R t cfg v => exact hk.joint hv (hw o).1 hl hr' hreg' ht st

/-- The step is allowed with these contacts. -/
def StepOk : NStp Ω → Contact → Prop
  | .joint dH _ _ _ _, k => ∀ p ∈ dH.keys, ∀ q ∈ dH.keys, k.Clean p q
  | _, _ => True

omit [MeasurableSpace Ω] in
theorem Orderly.cons {s : NStp Ω} {l : List (NStp Ω)} {k : Contact} (h : Orderly (s :: l) k) : StepOk s k ∧ Orderly l (s.contact k) := by
  cases s with
  | move id F Q ta tb w => exact ⟨trivial, h⟩
  | priv id H R t cfg v => exact ⟨trivial, h⟩
  | joint dH R t cfg v => exact h

theorem Chain.step (hn : NearCov near) {o : Ω} {k : Contact} {h h' : Ω → Hdl} {c c' : Ω → Central} {x : ℕ → RVec Ω} {s : NStp Ω} {l : List (ℕ × RVec Ω)}
    (hself : k.Self) (hk : Chain P dim ids o k h c x (s.noise dim :: l)) (hv : s.Told P dim ids) (hok : StepOk s k)
    (hl : ∀ μ ∈ l, (∀ k < μ.1, (fun ω => μ.2 ω k) ∈ sq2 P) ∧ Uncorr P (s.noise dim) μ) (hw : ∀ ω, Wf dim (h ω) (s.call dim x ω))
    (hr' : ∀ ω, Rel dim (h' ω) (c' ω)) (hreg' : ∀ ω, ∀ p ∈ ids, ((h' ω).find p).isSome) (st : ∀ ω, SpecStep dim near (c ω) (s.call dim x ω) (c' ω)) :
    Chain P dim ids o (s.contact k) h' c' (s.truth dim x) l := by
  classical
  intro X hX grp hcl hgr
  cases s with
  | move id F Q ta tb w =>
    have hkX := hk X hX grp hcl hgr
    by_cases hid : id ∈ X
    · exact hkX.step' hn (s := .move id F Q ta tb w) ⟨hid, hv.2⟩ hl hw hr' (fun ω p hp => hreg' ω p (hX hp)) st
    · have hc : ∀ ω, c' ω = (c ω).transform id F (F * (c ω).mu id) (F * (c ω).cov id id * F.tr + Q) tb ((c ω).fix id) := by
        intro ω
        have := st ω
        simp only [NStp.call] at this
        generalize c' ω = d at this
        cases this
        rfl
      have ne : ∀ p ∈ X, p ≠ id := fun p hp e => hid (e ▸ hp)
      refine hkX.stay hr' (fun ω p hp => hreg' ω p (hX hp)) (fun ω p hp q hq => ?_) (fun ω p hp => ?_) (fun ω p hp => ?_) fun p hp => if_neg (ne p hp)
      · rw [hc ω]
        simp only [Central.transform, if_neg (ne p hp), if_neg (ne q hq), if_neg (fun e : p = id ∧ q = id => ne p hp e.1)]
      · rw [hc ω]
        simp only [Central.transform, if_neg (ne p hp)]
      · rw [hc ω]
        simp only [Central.transform, if_neg (ne p hp)]
  | priv id H R t cfg v =>
    have hkX := hk X hX grp hcl hgr
    by_cases hid : id ∈ X
    · exact hkX.step' hn (s := .priv id H R t cfg v) ⟨hid, hv.2⟩ hl hw hr' (fun ω p hp => hreg' ω p (hX hp)) st
    · have hc : ∀ ω, ∃ A m S, c' ω = (c ω).transform id A m S t ((c ω).fix id) := by
        intro ω
        have := st ω
        simp only [NStp.call] at this
        generalize c' ω = d at this
        cases this
        exact ⟨_, _, _, rfl⟩
      have ne : ∀ p ∈ X, p ≠ id := fun p hp e => hid (e ▸ hp)
      refine hkX.stay hr' (fun ω p hp => hreg' ω p (hX hp)) (fun ω p hp q hq => ?_) (fun ω p hp => ?_) (fun ω p hp => ?_) fun p hp => rfl
      · obtain ⟨A, m, S, e⟩ := hc ω
        rw [e]
        simp only [Central.transform, if_neg (ne p hp), if_neg (ne q hq), if_neg (fun e : p = id ∧ q = id => ne p hp e.1)]
      · obtain ⟨A, m, S, e⟩ := hc ω
        rw [e]
        simp only [Central.transform, if_neg (ne p hp)]
      · obtain ⟨A, m, S, e⟩ := hc ω
        rw [e]
        simp only [Central.transform, if_neg (ne p hp)]
  | joint dH R t cfg v =>
    obtain ⟨v1, v2, v3, v4, v5⟩ := hv
    set D := dH.keys with hD
    by_cases hXD : ∃ p ∈ X, p ∈ D
    · obtain ⟨p0, hp0, hp0D⟩ := hXD
      have out : ∀ q ∈ X, q ∉ D → ∀ d ∈ D, ¬ k.linked d q ∧ ¬ k.linked q d := by
        intro q hq hqD d hd
        constructor
        · intro e
          rcases hcl p0 hp0 q hq (Or.inr ⟨⟨p0, hp0D, hself.linked p0⟩, d, hd, e⟩) with h1 | h1
          · exact hqD h1.2
          · exact h1.1 hp0D
        · intro e
          rcases hcl q hq p0 hp0 (Or.inr ⟨⟨d, hd, e⟩, p0, hp0D, hself.linked p0⟩) with h1 | h1
          · exact hqD h1.1
          · exact h1.2.1 hp0D
      let grp' : ℕ → ℕ := fun p => if p ∈ D then 0 else grp p + 1
      have hY : X ∪ D.toFinset ⊆ ids := Finset.union_subset hX fun p hp => v3 p (List.mem_toFinset.mp hp)
      have mem : ∀ p ∈ X ∪ D.toFinset, p ∉ D → p ∈ X := by
        intro p hp hpD
        rcases Finset.mem_union.mp hp with h1 | h1
        · exact h1
        · exact absurd (List.mem_toFinset.mp h1) hpD
      have hkY : Kept P dim grp' (X ∪ D.toFinset) o h c x ((NStp.joint dH R t cfg v).noise dim :: l) := by
        refine hk _ hY grp' (fun p hp q hq e => ?_) fun p hp q hq e => ?_
        · by_cases hpD : p ∈ D <;> by_cases hqD : q ∈ D
          · exact hok p hpD q hqD e
          · exact absurd e (out q (mem q hq hqD) hqD p hpD).1
          · exact absurd e (out p (mem p hp hpD) hpD q hqD).2
          · rcases hcl p (mem p hp hpD) q (mem q hq hqD) (Or.inl e) with h1 | h1
            · exact absurd h1.1 hpD
            · exact h1.2.2
        · by_cases hpD : p ∈ D <;> by_cases hqD : q ∈ D
          · simp only [grp', if_pos hpD, if_pos hqD]
          · exact absurd e (out q (mem q hq hqD) hqD p hpD).1
          · exact absurd e (out p (mem p hp hpD) hpD q hqD).2
          · simp only [grp', if_neg hpD, if_neg hqD]
            rw [hgr p (mem p hp hpD) q (mem q hq hqD) (Or.inl e)]
      have h1 := hkY.step' hn (s := .joint dH R t cfg v) ⟨v1, v2, ⟨0, fun p => ⟨fun hp => ⟨Finset.mem_union_right _ (List.mem_toFinset.mpr hp), if_pos hp⟩, fun hp => by
        by_contra hpD
        have := hp.2
        simp only [grp', if_neg (show p ∉ D from hpD)] at this
        omega⟩⟩, v4, v5⟩ hl hw hr' (fun ω p hp => hreg' ω p (hY hp)) st
      refine h1.mono Finset.subset_union_left fun p hp q hq hne e => ?_
      by_cases hpD : p ∈ D <;> by_cases hqD : q ∈ D
      · exact hne (hgr p hp q hq (Or.inr ⟨⟨p, hpD, hself.linked p⟩, q, hqD, hself.linked q⟩))
      · simp only [grp', if_pos hpD, if_neg hqD] at e
        omega
      · simp only [grp', if_neg hpD, if_pos hqD] at e
        omega
      · simp only [grp', if_neg hpD, if_neg hqD] at e
        omega
    · push Not at hXD
      have hkX : Kept P dim grp X o h c x ((NStp.joint dH R t cfg v).noise dim :: l) := by
        refine hk X hX grp (fun p hp q hq e => ?_) fun p hp q hq e => hgr p hp q hq (Or.inl e)
        rcases hcl p hp q hq (Or.inl e) with h1 | h1
        · exact absurd h1.1 (hXD p hp)
        · exact h1.2.2
      have hc : ∀ ω, ∃ S dx, c' ω = (c ω).joint (participants dim (c ω) dH) S dx := by
        intro ω
        have := st ω
        simp only [NStp.call] at this
        generalize c' ω = d at this
        cases this
        exact ⟨_, _, rfl⟩
      have ne : ∀ ω, ∀ p ∈ X, p ∉ (participants dim (c ω) dH).map (·.1) := by
        intro ω p hp e
        unfold participants at e
        rw [List.map_map] at e
        obtain ⟨y, hy, rfl⟩ := List.mem_map.mp e
        exact hXD _ hp (List.mem_filter.mp hy).1
      refine hkX.stay hr' (fun ω p hp => hreg' ω p (hX hp)) (fun ω p hp q hq => ?_) (fun ω p hp => ?_) (fun ω p hp => ?_) fun p hp => rfl
      · obtain ⟨S, dx, e⟩ := hc ω
        rw [e]
        simp only [Central.joint, if_neg (ne ω p hp), if_neg (ne ω q hq), if_neg (fun e : p ∈ (participants dim (c ω) dH).map (·.1) ∧ q ∈ (participants dim (c ω) dH).map (·.1) => ne ω p hp e.1)]
      · obtain ⟨S, dx, e⟩ := hc ω
        rw [e]
        simp only [Central.joint, if_neg (ne ω p hp)]
      · obtain ⟨S, dx, e⟩ := hc ω
        rw [e]
        rfl

theorem told_later {s : NStp Ω} {l : List (NStp Ω)} (hv : ∀ s' ∈ l, s'.Told P dim ids) (hu : ((s :: l).map (·.noise dim)).Pairwise (Uncorr P)) :
    ∀ μ ∈ l.map (·.noise dim), (∀ k < μ.1, (fun ω => μ.2 ω k) ∈ sq2 P) ∧ Uncorr P (s.noise dim) μ := by
  intro μ hμ
  rw [List.map_cons, List.pairwise_cons] at hu
  refine ⟨?_, hu.1 μ hμ⟩
  obtain ⟨s', hs', rfl⟩ := List.mem_map.mp hμ
  have := hv s' hs'
  cases s' with
  | move id F Q ta tb w => exact this.2.2.1
  | priv id H R t cfg v => exact this.2.2.1
  | joint dH R t cfg v => exact this.2.2.2.2.1

theorem Chain.single {o : Ω} {k : Contact} {h : Ω → Hdl} {c : Ω → Central} {x : ℕ → RVec Ω} {l : List (ℕ × RVec Ω)} (hself : k.Self)
    (hk : Chain P dim ids o k h c x l) {p : ℕ} (hp : p ∈ ids) : Kept P dim (fun _ => 0) {p} o h c x l := by
  refine hk {p} (by simpa using hp) _ (fun a ha b hb _ => ?_) fun _ _ _ _ _ => rfl
  rw [Finset.mem_singleton.mp ha, Finset.mem_singleton.mp hb]
  exact hself.together p

theorem Chain.runs (hnear : NearOk near) (hn : NearCov near) {o : Ω} {k : Contact} {h h' : Ω → Hdl} {c : Ω → Central} {x : ℕ → RVec Ω} {l : List (NStp Ω)}
    (hself : k.Self) (hrel : ∀ ω, Rel dim (h ω) (c ω)) (hreg : ∀ ω, ∀ p ∈ ids, ((h ω).find p).isSome)
    (hk : Chain P dim ids o k h c x (l.map (·.noise dim))) (hv : ∀ s ∈ l, s.Told P dim ids) (ho : Orderly l k)
    (hu : (l.map (·.noise dim)).Pairwise (Uncorr P)) (hrun : ∀ ω, Runs fp near pred dim (h ω) ((teamScript dim l x ω).map (·, true)) (h' ω)) :
    ∃ c' : Ω → Central, (∀ ω, Rel dim (h' ω) (c' ω)) ∧ Chain P dim ids o (endContact l k) h' c' (teamTruth dim l x) [] := by
  induction l generalizing h c x k with
  | nil =>
    have : h' = h := by
      funext ω
      have := hrun ω
      simp only [teamScript, List.map_nil] at this
      generalize h' ω = a at this
      generalize h ω = b at this
      cases this
      rfl
    rw [this]
    exact ⟨c, hrel, hk⟩
  | cons s l ih =>
    have hex : ∀ ω, ∃ h1, Wf dim (h ω) (s.call dim x ω) ∧ Hdl.run fp near pred (h ω) (s.call dim x ω) = .ok (h1, true) ∧
        Runs fp near pred dim h1 ((teamScript dim l (s.truth dim x) ω).map (·, true)) (h' ω) := by
      intro ω
      have := hrun ω
      simp only [teamScript, List.map_cons] at this
      cases this with
      | step hw hs r => exact ⟨_, hw, hs, r⟩
    choose h1 hw hs hr using hex
    have hv' : ∀ s' ∈ l, s'.Told P dim ids := fun s' hs' => hv s' (List.mem_cons_of_mem _ hs')
    obtain ⟨ok, ho'⟩ := ho.cons
    choose c1 st hr1 using fun ω => Hdl.accepted hnear (hrel ω) _ (hw ω) (hs ω)
    have hreg1 : ∀ ω, ∀ p ∈ ids, ((h1 ω).find p).isSome := fun ω p hp => sameDom_isSome (step_dom (hrel ω) _ (hw ω) (hs ω)) (hreg ω p hp)
    have k1 := Chain.step hn hself hk (hv s List.mem_cons_self) ok (told_later hv' hu) hw hr1 hreg1 st
    exact ih (self_step hself s) hr1 hreg1 k1 hv' ho' (List.pairwise_cons.mp (by rw [← List.map_cons]; exact hu)).2 hr

omit [MeasurableSpace Ω] in
theorem self_end {k : Contact} (hk : k.Self) (l : List (NStp Ω)) : (endContact l k).Self := by
  induction l generalizing k with
  | nil => exact hk
  | cons s l ih => exact ih (self_step hk s)

theorem Start.chain (hnear : NearOk near) {h : Ω → Hdl} {t : Int} {C : ℕ → ℕ → Mat} {m : Ω → ℕ → Mat} {x : ℕ → RVec Ω} {l : List (NStp Ω)}
    (hs : Start P fp near pred dim grp ids h t C m x l) (o : Ω) : ∃ c : Ω → Central, (∀ ω, Rel dim (h ω) (c ω)) ∧ (∀ ω, ∀ p ∈ ids, ((h ω).find p).isSome) ∧
      Chain P dim ids o (groups grp) h c x (l.map (·.noise dim)) ∧ ∀ ω, ∀ p ∈ ids, (c ω).tm p = t := by
  obtain ⟨c, hk, ht⟩ := hs.kept hnear o
  exact ⟨c, hk.rel, hk.reg, fun X hX grp' _ hgr => hk.mono hX fun p hp q hq hne e => hne (hgr p hp q hq e), ht⟩

/-- C116 with changing participants: true states move and are measured with random noise that is uncorrelated and at most what the filters are told; every joint
measurement is of instances that know nothing of each other yet, not even through others, or that were last measured together. If for every outcome the
calls go through and are accepted, then afterwards the covariances read at a time `t'` from instances `sub` that are at `t'`, and in which those that
may know something of each other were last measured together - for instance from one instance alone - do not depend on chance and cover the errors of the
means read. -/
theorem c116_orderly_partial [IsProbabilityMeasure P] (hnear : NearOk near) (hn : NearCov near) {h h' : Ω → Hdl} {t : Int} {C : ℕ → ℕ → Mat} {m : Ω → ℕ → Mat}
    {x : ℕ → RVec Ω} {l : List (NStp Ω)} (hs : Start P fp near pred dim grp ids h t C m x l) (hv : ∀ s ∈ l, s.Told P dim ids) (ho : Orderly l (groups grp))
    (hrun : ∀ ω, Runs fp near pred dim (h ω) ((teamScript dim l x ω).map (·, true)) (h' ω)) {t' : Int} {sub : Finset ℕ} (hsub : sub ⊆ ids)
    (hcl : ∀ p ∈ sub, ∀ q ∈ sub, p ≠ q → (endContact l (groups grp)).Clean p q) (hN' : ∀ ω, ∀ p ∈ sub, Newest (h' ω) p t') :
    ∃ (C' : ℕ → ℕ → Mat) (m' : Ω → ℕ → Mat), (∀ ω, ∀ p ∈ sub, ∀ q ∈ sub, IsCov dim (h' ω) p q t' (C' p q)) ∧ (∀ ω, ∀ p ∈ sub, IsMean (h' ω) p t' (m' ω p)) ∧
      Covers P dim sub C' fun p ω i => teamTruth dim l x p ω i - (m' ω p).e i 0 := by
  obtain ⟨o⟩ := nonempty_of_isProbabilityMeasure P
  obtain ⟨c, hrel, hreg, hk, -⟩ := hs.chain hnear o
  obtain ⟨c', -, hk'⟩ := hk.runs hnear hn (groups_self grp) hrel hreg hv ho hs.noises hrun
  have hself := self_end (groups_self grp) l
  have hk1 := hk' sub hsub (fun _ => 0) (fun p hp q hq => by
    by_cases e : p = q
    · rw [← e]; exact fun _ => hself.together p
    · exact hcl p hp q hq e) fun _ _ _ _ _ => rfl
  refine ⟨(c' o).cov, fun ω => (c' ω).mu, fun ω p hp q hq => ?_, fun ω p hp => (hk1.rel ω).isMean (hN' ω p hp), hk1.inv.cov⟩
  rw [← hk1.same ω p hp q hq]
  exact (hk1.rel ω).isCov (hN' ω p hp) (hN' ω q hq)

theorem Chain.accept (hnear : NearOk near) (hn : NearCov near) {o : Ω} {k : Contact} {h : Ω → Hdl} {c : Ω → Central} {x : ℕ → RVec Ω} {l : List (NStp Ω)} {tm : ℕ → Int}
    (hself : k.Self) (hrel : ∀ ω, Rel dim (h ω) (c ω)) (hreg : ∀ ω, ∀ p ∈ ids, ((h ω).find p).isSome)
    (hk : Chain P dim ids o k h c x (l.map (·.noise dim))) (hv : ∀ s ∈ l, s.Told P dim ids) (hf : ∀ s ∈ l, s.Fit dim) (ho : Orderly l k)
    (hu : (l.map (·.noise dim)).Pairwise (Uncorr P)) (ht : Timed l tm) (htm : ∀ ω, ∀ p ∈ ids, (c ω).tm p = tm p) :
    ∃ h' : Ω → Hdl, ∀ ω, Runs fp near pred dim (h ω) ((teamScript dim l x ω).map (·, true)) (h' ω) ∧ ∀ p ∈ ids, Newest (h' ω) p (endTm l tm p) := by
  induction l generalizing h c x tm k with
  | nil => exact ⟨h, fun ω => ⟨Runs.nil _, fun p hp => Newest.of_rel (hrel ω) (hreg ω p hp) (htm ω p hp)⟩⟩
  | cons s l ih =>
    have hv' : ∀ s' ∈ l, s'.Told P dim ids := fun s' hs' => hv s' (List.mem_cons_of_mem _ hs')
    have hvs := hv s List.mem_cons_self
    have hfs := hf s List.mem_cons_self
    have new : ∀ ω, ∀ p ∈ ids, Newest (h ω) p (tm p) := fun ω p hp => Newest.of_rel (hrel ω) (hreg ω p hp) (htm ω p hp)
    have fixd : ∀ ω, ∀ p ∈ ids, fixedAt (h ω) (tm p) p = false := by
      intro ω p hp
      obtain ⟨b, hb, -, -, -, h5⟩ := (hrel ω).bel p (hreg ω p hp)
      have hb' : belief (h ω) p (tm p) = some b := by rw [← htm ω p hp]; exact hb
      unfold fixedAt
      rw [hb', ← ((hk.single hself hp).team ω).free p (Finset.mem_singleton_self p), ← h5]
    have hwf : ∀ ω, Wf dim (h ω) (s.call dim x ω) ∧ Fits dim (h ω) (s.call dim x ω) ∧ Ungated (s.call dim x ω) := by
      intro ω
      cases s with
      | move id F Q ta tb w =>
        obtain ⟨f1, f2, f3⟩ := hfs
        refine ⟨⟨?_, f3, ?_⟩, ⟨f1, f2⟩, trivial⟩
        · rw [← ht.1]; exact new ω id hvs.1
        · refine Mat.ext' (by rw [tr_rows, f2.1, f2.2]) (by rw [tr_cols, f2.1, f2.2]) fun i j _ _ => ?_
          rw [tr_e]; exact hvs.2.1.2.1 j i
      | priv id H R t cfg v =>
        obtain ⟨f1, f2, f3⟩ := hfs
        refine ⟨?_, ⟨f1, f2, ⟨f2.1, rfl⟩, Or.inl f3⟩, f3⟩
        show Newest (h ω) id t
        rw [← ht.1]; exact new ω id hvs.1
      | joint dH R t cfg v =>
        obtain ⟨f1, f2, f3⟩ := hfs
        obtain ⟨v1, v2, hg, v4, -⟩ := hvs
        refine ⟨⟨f1, fun p hp => ?_⟩, ⟨v1, ⟨R.rows, fun e he => ⟨⟨f2 e he, v2 e he⟩, ?_⟩, ⟨rfl, v4.1.1.symm⟩, ⟨rfl, rfl⟩⟩, Or.inl f3⟩, f3⟩
        · rw [← ht.1 p hp]; exact new ω p (hg p hp)
        · have hp : e.1 ∈ dH.keys := List.mem_map.mpr ⟨e, he, rfl⟩
          rw [← ht.1 e.1 hp]; exact fixd ω e.1 (hg e.1 hp)
    have hex : ∀ ω, ∃ h1, Hdl.run fp near pred (h ω) (s.call dim x ω) = .ok (h1, true) := by
      intro ω
      obtain ⟨h1, a, e, ha⟩ := progress_rel (fp := fp) (pred := pred) hnear (hrel ω) _ (hwf ω).1 (hwf ω).2.1
      rw [ha (hwf ω).2.2] at e
      exact ⟨h1, e⟩
    choose h1 hs using hex
    obtain ⟨ok, ho'⟩ := ho.cons
    choose c1 st hr1 using fun ω => Hdl.accepted hnear (hrel ω) _ (hwf ω).1 (hs ω)
    have hreg1 : ∀ ω, ∀ p ∈ ids, ((h1 ω).find p).isSome := fun ω p hp => sameDom_isSome (step_dom (hrel ω) _ (hwf ω).1 (hs ω)) (hreg ω p hp)
    have k1 := Chain.step hn hself hk hvs ok (told_later hv' hu) (fun ω => (hwf ω).1) hr1 hreg1 st
    have hnext : ∃ tm', Timed l tm' ∧ endTm (s :: l) tm = endTm l tm' ∧ ∀ ω, ∀ p ∈ ids, (c1 ω).tm p = tm' p := by
      cases s with
      | move id F Q ta tb w =>
        refine ⟨_, ht.2, rfl, fun ω p hp => ?_⟩
        have h2 := st ω
        simp only [NStp.call] at h2
        generalize c1 ω = d at h2
        cases h2
        simp only [Central.transform, Function.update_apply]
        split
        · rfl
        · exact htm ω p hp
      | priv id H R t cfg v =>
        refine ⟨_, ht.2, rfl, fun ω p hp => ?_⟩
        have h2 := st ω
        simp only [NStp.call] at h2
        generalize c1 ω = d at h2
        cases h2
        simp only [Central.transform]
        split
        · rename_i e; rw [e]; exact ht.1.symm
        · exact htm ω p hp
      | joint dH R t cfg v =>
        refine ⟨_, ht.2, rfl, fun ω p hp => ?_⟩
        have h2 := st ω
        simp only [NStp.call] at h2
        generalize c1 ω = d at h2
        cases h2
        exact htm ω p hp
    obtain ⟨tm', ht', he, htm'⟩ := hnext
    obtain ⟨h2, hr2⟩ := ih (self_step hself s) hr1 hreg1 k1 hv' (fun s' hs' => hf s' (List.mem_cons_of_mem _ hs')) ho'
      (List.pairwise_cons.mp (by rw [← List.map_cons]; exact hu)).2 ht' htm'
    exact ⟨h2, fun ω => ⟨Runs.step (hwf ω).1 (hs ω) (hr2 ω).1, by rw [he]; exact (hr2 ω).2⟩⟩

/-- ... and if the matrices fit, the outlier gate is off and every step is at the time of the newest estimates, the calls do go through and are accepted,
whatever chance is, and lead to the expected times. -/
theorem c116_orderly_accepts [IsProbabilityMeasure P] (hnear : NearOk near) (hn : NearCov near) {h : Ω → Hdl} {t : Int} {C : ℕ → ℕ → Mat} {m : Ω → ℕ → Mat}
    {x : ℕ → RVec Ω} {l : List (NStp Ω)} (hs : Start P fp near pred dim grp ids h t C m x l) (hv : ∀ s ∈ l, s.Told P dim ids) (hf : ∀ s ∈ l, s.Fit dim)
    (ho : Orderly l (groups grp)) (ht : Timed l fun _ => t) : ∃ h' : Ω → Hdl, ∀ ω, Runs fp near pred dim (h ω) ((teamScript dim l x ω).map (·, true)) (h' ω) ∧
      ∀ p ∈ ids, Newest (h' ω) p (endTm l (fun _ => t) p) := by
  obtain ⟨o⟩ := nonempty_of_isProbabilityMeasure P
  obtain ⟨c, hrel, hreg, hk, htm⟩ := hs.chain hnear o
  exact hk.accept hnear hn (groups_self grp) hrel hreg hv hf ho hs.noises ht htm

end

/-! ## Example: three instances, measured in pairs one after the other -/

open Hdl.Example (s near nearOk pred cfg dim)
open Hdl.TeamEx (h3 c3)

/-- The difference of the states of 1 and 2 is measured with the fourth number as error, then that of 2 and 3 with the fifth. -/
noncomputable def chain5 : List (NStp (Fin 5 → ℝ)) :=
  [.joint [(1, s 1), (2, s (-1))] (s 1) 0 cfg (draw5 3), .joint [(2, s 1), (3, s (-1))] (s 1) 0 cfg (draw5 4)]

theorem chain5_start : Start gauss5 FP.exact near pred dim (fun p => p) {1, 2, 3} (fun _ => h3) 0 c3.cov (fun _ _ => s 0) start5 chain5 := by
  have mem : ∀ p ∈ ({1, 2, 3} : Finset ℕ), p = 1 ∨ p = 2 ∨ p = 3 := fun p hp => by simpa using hp
  refine ⟨start5_ok.reach, start5_ok.newest, start5_ok.free, start5_ok.cov, start5_ok.mean, start5_ok.covers, fun p hp q hq hne => ⟨c3_off hne, ?_⟩, ?_, ?_⟩
  · rw [start5_err, start5_err]
    exact draw5_uncorr _ _ (num5_ne (mem p hp) (mem q hq) hne)
  · intro st hst p hp
    rw [start5_err]
    simp only [chain5, List.mem_cons, List.not_mem_nil, or_false] at hst
    rcases hst with rfl | rfl
    · exact draw5_uncorr _ _ (by rcases mem p hp with rfl | rfl | rfl <;> decide)
    · exact draw5_uncorr _ _ (by rcases mem p hp with rfl | rfl | rfl <;> decide)
  · simp only [chain5, List.map_cons, List.map_nil, NStp.noise]
    refine List.pairwise_cons.mpr ⟨?_, List.pairwise_singleton _ _⟩
    intro a ha
    rw [List.mem_singleton] at ha
    subst ha
    exact draw5_uncorr _ _ (by decide)

theorem chain5_told : (∀ st ∈ chain5, st.Told gauss5 dim {1, 2, 3}) ∧ ∀ st ∈ chain5, st.Fit dim := by
  constructor
  · intro st hst
    simp only [chain5, List.mem_cons, List.not_mem_nil, or_false] at hst
    rcases hst with rfl | rfl
    all_goals
      refine ⟨by simp, ?_, ?_, noise5, draw5_atMost _⟩
      · intro e he
        simp only [List.mem_cons, List.not_mem_nil, or_false] at he
        rcases he with rfl | rfl <;> rfl
      · intro p hp
        simp only [SMap.keys, List.map_cons, List.map_nil, List.mem_cons, List.not_mem_nil, or_false] at hp
        rcases hp with rfl | rfl <;> simp
  · intro st hst
    simp only [chain5, List.mem_cons, List.not_mem_nil, or_false] at hst
    rcases hst with rfl | rfl
    all_goals
      refine ⟨by simp [SMap.Sorted], ?_, rfl⟩
      intro e he
      simp only [List.mem_cons, List.not_mem_nil, or_false] at he
      rcases he with rfl | rfl <;> rfl

theorem chain5_orderly : Orderly chain5 (groups fun p => p) := by
  refine ⟨?_, ?_, trivial⟩
  · exact fun p _ q _ e => e
  · intro p hp q hq e
    simp only [SMap.keys, List.map_cons, List.map_nil, List.mem_cons, List.not_mem_nil, or_false] at hp hq
    simp only [NStp.contact, Contact.meet, groups, SMap.keys, List.map_cons, List.map_nil, List.mem_cons, List.not_mem_nil, or_false] at e ⊢
    rcases hp with rfl | rfl <;> rcases hq with rfl | rfl <;> simp_all

/-- The premises are met: the calls are accepted whatever chance is, and afterwards each of the three covers its own error, and 2 and 3, taken together, cover theirs. -/
example : ∃ h' : (Fin 5 → ℝ) → Hdl, (∀ ω, Runs FP.exact near pred dim h3 ((teamScript dim chain5 start5 ω).map (·, true)) (h' ω)) ∧
    ∀ sub : Finset ℕ, sub = {1} ∨ sub = {2, 3} → ∃ (C' : ℕ → ℕ → Mat) (m' : (Fin 5 → ℝ) → ℕ → Mat), (∀ ω, ∀ p ∈ sub, ∀ q ∈ sub, IsCov dim (h' ω) p q 0 (C' p q)) ∧
      (∀ ω, ∀ p ∈ sub, IsMean (h' ω) p 0 (m' ω p)) ∧ Covers gauss5 dim sub C' fun p ω i => start5 p ω i - (m' ω p).e i 0 := by
  obtain ⟨h', hr⟩ := c116_orderly_accepts nearOk Hdl.Example.near_cov chain5_start chain5_told.1 chain5_told.2 chain5_orderly ⟨fun _ _ => rfl, fun _ _ => rfl, trivial⟩
  refine ⟨h', fun ω => (hr ω).1, fun sub hsub => ?_⟩
  have hin : sub ⊆ {1, 2, 3} := by rcases hsub with rfl | rfl <;> decide
  refine c116_orderly_partial nearOk Hdl.Example.near_cov chain5_start chain5_told.1 chain5_orderly (fun ω => (hr ω).1) hin (fun p hp q hq hne e => ?_)
    fun ω p hp => (hr ω).2 p (hin hp)
  rcases hsub with rfl | rfl
  · simp only [Finset.mem_singleton] at hp hq
    exact absurd (hp.trans hq.symm) hne
  · simp only [Finset.mem_insert, Finset.mem_singleton] at hp hq
    refine Or.inl ?_
    simp only [SMap.keys, List.map_cons, List.map_nil, List.mem_cons, List.not_mem_nil, or_false]
    exact ⟨hp, hq⟩

end Honest
end Ikf
