import Verif.Spec.Commute
import Verif.Props.Retime

/-!
# Calls on different instances can be made in any order (C135); propagating in steps or at once is the same (C136)
-/

namespace Ikf
open Mat

namespace Commute
open Hdl (Rel Newest Wf Fits run NearOk)
open Rename (Used Same Both Renamed SameDict Sized Whole Turned)
open Groups (idn Outcome outcome_same step_same step_frame outcome_of_turned)

section central
variable {dim : ℕ → ℕ} {near : Mat → Mat} {c c' c1 c1' c2 c2' : Central} {D : ℕ → Prop} {ev : Ev} {a : Bool}

theorem same_refl : Same idn D c c := ⟨fun _ _ => rfl, fun _ _ => rfl, fun _ _ => rfl, fun _ _ _ _ => rfl⟩

/-- What the call does to the centralised filter, given its answer. -/
def Acts (dim : ℕ → ℕ) (near : Mat → Mat) (c : Central) (ev : Ev) (a : Bool) (c1 : Central) : Prop :=
  (a = true ∧ SpecStep dim near c ev c1) ∨ (a = false ∧ c1 = c)

theorem acts_same (hc : Same idn D c c') (hz : Sized dim c D ev) (h : Acts dim near c ev a c1) (h' : Acts dim near c' ev a c1') : Same idn D c1 c1' := by
  rcases h with ⟨rfl, h⟩ | ⟨rfl, rfl⟩
  · rcases h' with ⟨-, h'⟩ | ⟨h', -⟩
    · exact step_same hc hz h h'
    · cases h'
  · rcases h' with ⟨h', -⟩ | ⟨-, rfl⟩
    · cases h'
    · exact hc

theorem acts_frame (hz : Sized dim c (Concerns ev) ev) (h : Acts dim near c ev a c1) : Same idn (fun p => ¬ Concerns ev p) c c1 := by
  rcases h with ⟨rfl, h⟩ | ⟨rfl, rfl⟩
  · exact (step_frame (D := Concerns ev) (E := fun p => ¬ Concerns ev p) (fun p h1 h2 => h2 h1) hz
      (by rintro a b S t rfl; exact ⟨Or.inl rfl, Or.inr rfl⟩) h).1
  · exact same_refl

/-- Multiplication from the left, or nothing. -/
def lop : Option Mat → Mat → Mat
  | none, X => X
  | some F, X => F * X

/-- Multiplication with the transpose from the right, or nothing. -/
def rop : Option Mat → Mat → Mat
  | none, X => X
  | some F, X => X * F.tr

theorem lop_rop (o o' : Option Mat) (X : Mat) : rop o' (lop o X) = lop o (rop o' X) := by
  cases o <;> cases o' <;> simp only [lop, rop]
  exact Mat.mul_assoc _ _ _

/-- How the correlations with the instances the call does not concern change depends on those it concerns only. -/
theorem acts_cross (hc : Same idn (Concerns ev) c c') (hz : Sized dim c (Concerns ev) ev) (h : Acts dim near c ev a c1) (h' : Acts dim near c' ev a c1') :
    ∃ o : ℕ → Option Mat, ∀ p q, Concerns ev p → ¬ Concerns ev q →
      (c1.cov p q = lop (o p) (c.cov p q) ∧ c1.cov q p = rop (o p) (c.cov q p)) ∧
      (c1'.cov p q = lop (o p) (c'.cov p q) ∧ c1'.cov q p = rop (o p) (c'.cov q p)) := by
  classical
  rcases h with ⟨rfl, h⟩ | ⟨rfl, rfl⟩
  swap
  · rcases h' with ⟨h', -⟩ | ⟨-, rfl⟩
    · cases h'
    · exact ⟨fun _ => none, fun p q _ _ => ⟨⟨rfl, rfl⟩, rfl, rfl⟩⟩
  rcases h' with ⟨-, h'⟩ | ⟨h', -⟩
  swap
  · cases h'
  have tr : ∀ (id : ℕ) (F m m' P P' : Mat) (t t' : Int) (fx fx' : Bool), ∃ o : ℕ → Option Mat, ∀ p q, p = id → ¬ q = id →
      ((c.transform id F m P t fx).cov p q = lop (o p) (c.cov p q) ∧ (c.transform id F m P t fx).cov q p = rop (o p) (c.cov q p)) ∧
      ((c'.transform id F m' P' t' fx').cov p q = lop (o p) (c'.cov p q) ∧ (c'.transform id F m' P' t' fx').cov q p = rop (o p) (c'.cov q p)) := by
    intro id F m m' P P' t t' fx fx'
    refine ⟨fun _ => some F, ?_⟩
    rintro p q rfl hq
    simp [Central.transform, hq, lop, rop]
  have jo : ∀ (dH : SMap Mat) (m : ℕ) (P dx : Mat), Whole dim c (fun p => p ∈ dH.keys) dH m → Same idn (fun p => p ∈ dH.keys) c c' →
      ∃ o : ℕ → Option Mat, ∀ p q, p ∈ dH.keys → ¬ q ∈ dH.keys →
      ((c.joint (participants dim c dH) P dx).cov p q = lop (o p) (c.cov p q) ∧ (c.joint (participants dim c dH) P dx).cov q p = rop (o p) (c.cov q p)) ∧
      ((c'.joint (participants dim c' dH) P dx).cov p q = lop (o p) (c'.cov p q) ∧ (c'.joint (participants dim c' dH) P dx).cov q p = rop (o p) (c'.cov q p)) := by
    intro dH m P dx hw hc
    rw [Groups.parts_same hc hw.known]
    refine ⟨fun p => if p ∈ (participants dim c dH).map (·.1) then
      some (P.block (off (participants dim c dH) p) (off (participants dim c dH) p) (((participants dim c dH).lookup p).getD 0) (((participants dim c dH).lookup p).getD 0) * (c.cov p p).inv) else none, fun p q hp hq => ?_⟩
    have hq' : q ∉ (participants dim c dH).map (·.1) := by
      intro h
      obtain ⟨x, hx, rfl⟩ := List.mem_map.mp h
      exact hq (Groups.part_mem (D := fun p => p ∈ dH.keys) (fun _ h => h) x hx)
    have e := hc.cov p p hp hp
    simp only [idn] at e
    simp only [Central.joint, hq', and_false, false_and, if_false, e]
    split <;> exact ⟨⟨rfl, rfl⟩, rfl, rfl⟩
  cases h with
  | propKF => cases h'; exact tr _ _ _ _ _ _ _ _ _ _
  | propEKF => cases h'; exact tr _ _ _ _ _ _ _ _ _ _
  | propBel => cases h'; exact tr _ _ _ _ _ _ _ _ _ _
  | privKF id H R z t cfg res h1 h2 =>
    cases h' with
    | privKF _ _ _ _ _ _ res' h1' h2' =>
      have e := hc.cov id id rfl rfl
      simp only [idn] at e
      rw [e]
      exact tr _ _ _ _ _ _ _ _ _ _
  | privEKF id H R z t cfg res h1 h2 =>
    cases h' with
    | privEKF _ _ _ _ _ _ res' h1' h2' =>
      have e := hc.cov id id rfl rfl
      simp only [idn] at e
      rw [e]
      exact tr _ _ _ _ _ _ _ _ _ _
  | setCov a b S t =>
    cases h'
    refine ⟨fun _ => none, fun p q hp hq => ?_⟩
    have n1 : ¬ q = a := fun e => hq (Or.inl e)
    have n2 : ¬ q = b := fun e => hq (Or.inr e)
    simp [Central.setCov, n1, n2, lop, rop]
  | jointR dH R r t cfg H S res hH hS h1 h2 =>
    cases h' with
    | jointR _ _ _ _ _ H' S' res' hH' hS' h1' h2' =>
      cases outcome_same hc hz (.jointR _ _ _ _ _ _ _ _ hH hS h1) (.jointR _ _ _ _ _ _ _ _ hH' hS' h1')
      obtain ⟨m, hw, -, -⟩ := hz
      exact jo _ _ _ _ hw hc
  | jointZ dH z R t cfg H S x res hH hS hx h1 h2 =>
    cases h' with
    | jointZ _ _ _ _ _ H' S' x' res' hH' hS' hx' h1' h2' =>
      cases outcome_same hc hz (.jointZ _ _ _ _ _ _ _ _ _ hH hS hx h1) (.jointZ _ _ _ _ _ _ _ _ _ hH' hS' hx' h1')
      obtain ⟨m, hw, -, -⟩ := hz
      exact jo _ _ _ _ hw hc

/-- Two calls that concern different instances commute. -/
theorem acts_comm {e f : Ev} {a b : Bool} (hd : ∀ p, Concerns e p → Concerns f p → False) (ze : Sized dim c (Concerns e) e) (zf : Sized dim c (Concerns f) f)
    (h1 : Acts dim near c e a c1) (h2 : Acts dim near c1 f b c2) (h1' : Acts dim near c f b c1') (h2' : Acts dim near c1' e a c2') (p q : ℕ) :
    c2'.tm p = c2.tm p ∧ c2'.mu p = c2.mu p ∧ c2'.fix p = c2.fix p ∧ c2'.cov p q = c2.cov p q := by
  have hfe : ∀ p, Concerns f p → ¬ Concerns e p := fun p h1 h2 => hd p h2 h1
  have hef : ∀ p, Concerns e p → ¬ Concerns f p := fun p h1 h2 => hd p h1 h2
  have F1 := acts_frame ze h1
  have F1' := acts_frame zf h1'
  have sub : ∀ {A B : ℕ → Prop} {x y : Central}, (∀ p, B p → A p) → Same idn A x y → Same idn B x y := fun i s =>
    ⟨fun p hp => s.tm p (i p hp), fun p hp => s.mu p (i p hp), fun p hp => s.fix p (i p hp), fun p q hp hq => s.cov p q (i p hp) (i q hq)⟩
  have Sf : Same idn (Concerns f) c c1 := sub hfe F1
  have Se : Same idn (Concerns e) c c1' := sub hef F1'
  have F2 := acts_frame (Groups.sized_same Sf zf) h2
  have F2' := acts_frame (Groups.sized_same Se ze) h2'
  have Ee := acts_same Se ze h1 h2'
  have Ef := acts_same Sf zf h1' h2
  obtain ⟨oe, Ce⟩ := acts_cross Se ze h1 h2'
  obtain ⟨of, Cf⟩ := acts_cross Sf zf h1' h2
  have val : ∀ p, c2'.tm p = c2.tm p ∧ c2'.mu p = c2.mu p ∧ c2'.fix p = c2.fix p := by
    intro p
    by_cases he : Concerns e p
    · exact ⟨(Ee.tm p he).trans (F2.tm p (hef p he)).symm, (Ee.mu p he).trans (F2.mu p (hef p he)).symm, (Ee.fix p he).trans (F2.fix p (hef p he)).symm⟩
    · by_cases hf : Concerns f p
      · exact ⟨(F2'.tm p he).trans (Ef.tm p hf).symm, (F2'.mu p he).trans (Ef.mu p hf).symm, (F2'.fix p he).trans (Ef.fix p hf).symm⟩
      · exact ⟨((F2'.tm p he).trans (F1'.tm p hf)).trans ((F2.tm p hf).trans (F1.tm p he)).symm,
          ((F2'.mu p he).trans (F1'.mu p hf)).trans ((F2.mu p hf).trans (F1.mu p he)).symm,
          ((F2'.fix p he).trans (F1'.fix p hf)).trans ((F2.fix p hf).trans (F1.fix p he)).symm⟩
  refine ⟨(val p).1, (val p).2.1, (val p).2.2, ?_⟩
  have f1 := F1.cov
  have f1' := F1'.cov
  have f2 := F2.cov
  have f2' := F2'.cov
  have ee := Ee.cov
  have ef := Ef.cov
  simp only [idn] at f1 f1' f2 f2' ee ef
  by_cases hep : Concerns e p
  · have hfp := hef p hep
    by_cases heq : Concerns e q
    · rw [ee p q hep heq, f2 p q hfp (hef q heq)]
    · by_cases hfq : Concerns f q
      · rw [(Ce p q hep heq).2.1, (Cf q p hfq hfp).2.2, (Ce p q hep heq).1.1, (Cf q p hfq hfp).1.2, lop_rop]
      · rw [(Ce p q hep heq).2.1, f1' p q hfp hfq, f2 p q hfp hfq, (Ce p q hep heq).1.1]
  · by_cases hfp : Concerns f p
    · by_cases heq : Concerns e q
      · have hfq := hef q heq
        rw [(Ce q p heq hep).2.2, (Cf p q hfp hfq).2.1, (Ce q p heq hep).1.2, (Cf p q hfp hfq).1.1, lop_rop]
      · by_cases hfq : Concerns f q
        · rw [f2' p q hep heq, ef p q hfp hfq]
        · rw [f2' p q hep heq, (Cf p q hfp hfq).1.1, (Cf p q hfp hfq).2.1, f1 p q hep heq]
    · by_cases heq : Concerns e q
      · rw [(Ce q p heq hep).2.2, f1' p q hfp (hef q heq), f2 p q hfp (hef q heq), (Ce q p heq hep).1.2]
      · by_cases hfq : Concerns f q
        · rw [f2' p q hep heq, (Cf q p hfq hfp).1.2, (Cf q p hfq hfp).2.2, f1 p q hep heq]
        · rw [f2' p q hep heq, f1' p q hfp hfq, f2 p q hfp hfq, f1 p q hep heq]

end central

/-! ## The handlers -/

section handlers
variable {fp : FP} {near : Mat → Mat} {pred : ℕ → Inst → Int → Inst × Bool} {dim : ℕ → ℕ} {h h' h1 h1' h2 k : Hdl} {c c' c1 : Central} {ev : Ev} {a a' : Bool}

abbrev idt : ℤ → ℤ := fun t => t

theorem retimed_self (ev : Ev) : Retime.Retimed idt ev ev := by
  cases ev
  · exact .propKF _ _ _ _ _
  · exact .propEKF _ _ _ _ _ _
  · exact .propBel _ _ _ _ _
  · exact .privKF _ _ _ _ _ _
  · exact .privEKF _ _ _ _ _ _
  · exact .setCov _ _ _ _
  · exact .jointR _ _ _ _ _
  · exact .jointZ _ _ _ _ _

/-- Two handlers with the same estimates. -/
abbrev Alike (dim : ℕ → ℕ) (h h' : Hdl) (c c' : Central) : Prop := Retime.Pair idt dim h h' c c'

theorem Alike.agree (hb : Alike dim h h' c c') : Groups.Agree dim h h' := by
  obtain ⟨h1, h2⟩ := hb.read
  refine ⟨fun p t hp => ?_, h2⟩
  obtain ⟨n, b, b', e1, e2, e3, e4, e5, -⟩ := h1 p t hp
  exact ⟨n, b, b', e1, e2, e3, e4, e5⟩

/-- Handlers with the same estimates answer alike, and have the same estimates afterwards. -/
theorem Alike.used (hnear : NearOk near) {evs : List Ev} {as : List Bool} (hb : Alike dim h h' c c') (hu : Used fp near pred dim h evs as k) :
    ∃ k' c1 c1', Used fp near pred dim h' evs as k' ∧ Alike dim k k' c1 c1' := by
  induction hu generalizing h' c c' with
  | nil h => exact ⟨h', c, c', Used.nil h', hb⟩
  | @step h h1 h2 ev a evs as hw hf hs r ih =>
    obtain ⟨hw', hf'⟩ := hb.wf strictMono_id (retimed_self ev) hw hf
    obtain ⟨h1', d1, d1', hs', hb1⟩ := hb.step (pred' := pred) hnear strictMono_id (retimed_self ev) hw hf hs
    obtain ⟨k', d2, d2', hu', hb2⟩ := ih hb1
    exact ⟨k', d2, d2', Used.step hw' hf' hs' hu', hb2⟩

/-- The handler determines the centralised filter. -/
theorem rel_unique (hr : Rel dim h c) (hr' : Rel dim h c') : Same idn (fun p => (h.find p).isSome) c c' := by
  have tm : ∀ p, (h.find p).isSome → c'.tm p = c.tm p := fun p hp => ((Newest.of_rel hr hp rfl).rel hr').2
  have bel : ∀ p, (h.find p).isSome → c'.mu p = c.mu p ∧ c'.fix p = c.fix p ∧ c'.cov p p = c.cov p p := by
    intro p hp
    obtain ⟨b, e1, e2, e3, -, e4⟩ := hr.bel p hp
    obtain ⟨b', e1', e2', e3', -, e4'⟩ := hr'.bel p hp
    rw [tm p hp, e1] at e1'
    cases e1'
    exact ⟨e2'.symm.trans e2, e4'.symm.trans e4, e3'.symm.trans e3⟩
  refine ⟨tm, fun p hp => (bel p hp).1, fun p hp => (bel p hp).2.1, fun p q hp hq => ?_⟩
  by_cases hpq : p = q
  · subst hpq; exact (bel p hp).2.2
  · show c'.cov p q = c.cov p q
    rcases hr.pair p q hp hq hpq with ⟨F, G, f1, f2, -, -, f3⟩ | ⟨f1, f2, f3⟩
    · rcases hr'.pair p q hp hq hpq with ⟨F', G', f1', f2', -, -, f3'⟩ | ⟨f1', f2', f3'⟩
      · rw [tm p hp, f1] at f1'
        rw [tm q hq, f2] at f2'
        cases f1'; cases f2'
        rw [f3, f3']
      · rw [tm p hp, f1] at f1'
        cases f1'
    · rcases hr'.pair p q hp hq hpq with ⟨F', G', f1', f2', -, -, f3'⟩ | ⟨f1', f2', f3'⟩
      · rw [tm p hp, f1] at f1'
        cases f1'
      · rw [f3, f3']

theorem Alike.trans {c2 c2' : Central} (x : Alike dim h h1 c c1) (y : Alike dim h1 h2 c2 c2') : Alike dim h h2 c c2' := by
  have z := rel_unique x.rel' y.rel
  refine ⟨x.rel, y.rel', fun p hp => y.known p (x.known p hp), fun p hp => ?_, fun p hp => rfl, fun p hp => ?_, fun p hp => ?_, fun p q hp hq => ?_⟩
  · exact (y.tm p (x.known p hp)).trans ((z.tm p (x.known p hp)).trans (x.tm p hp))
  · exact (y.same.mu p (x.known p hp)).trans ((z.mu p (x.known p hp)).trans (x.same.mu p hp))
  · exact (y.same.fix p (x.known p hp)).trans ((z.fix p (x.known p hp)).trans (x.same.fix p hp))
  · exact (y.same.cov p q (x.known p hp) (x.known q hq)).trans ((z.cov p q (x.known p hp) (x.known q hq)).trans (x.same.cov p q hp hq))

theorem used_rel (hnear : NearOk near) {evs : List Ev} {as : List Bool} (hr : Rel dim h c) (hu : Used fp near pred dim h evs as k) : ∃ c1, Rel dim k c1 := by
  obtain ⟨k', c1, c1', -, hb⟩ := Alike.used hnear (h' := h) (c := c) (c' := c) ⟨hr, hr, fun _ h => h, fun _ _ => rfl, same_refl⟩ hu
  exact ⟨c1, hb.rel⟩

theorem run_acts (hnear : NearOk near) (hr : Rel dim h c) (hw : Wf dim h ev) (hs : run fp near pred h ev = .ok (h1, a)) :
    ∃ c1, Acts dim near c ev a c1 ∧ Rel dim h1 c1 := by
  cases a with
  | true => obtain ⟨c1, s, r⟩ := Hdl.accepted hnear hr ev hw hs; exact ⟨c1, Or.inl ⟨rfl, s⟩, r⟩
  | false => exact ⟨c, Or.inr ⟨rfl, rfl⟩, by rw [Hdl.rejected hr ev hw hs]; exact hr⟩

theorem known (hr : Rel dim h c) (hw : Wf dim h ev) {p : ℕ} (hp : Concerns ev p) : (h.find p).isSome := by
  cases ev with
  | propKF => cases hp; exact (hw.1.rel hr).1
  | propEKF => cases hp; exact (hw.1.rel hr).1
  | propBel => cases hp; exact (hw.1.rel hr).1
  | privKF => cases hp; exact (Newest.rel hr hw).1
  | privEKF => cases hp; exact (Newest.rel hr hw).1
  | setCov =>
    rcases hp with rfl | rfl
    · exact (hw.2.1.rel hr).1
    · exact (hw.2.2.1.rel hr).1
  | jointR => exact ((hw.2 p hp).rel hr).1
  | jointZ => exact ((hw.2 p hp).rel hr).1

theorem sizedOn (hr : Rel dim h c) (hw : Wf dim h ev) (hf : Fits dim h ev) : Sized dim c (Concerns ev) ev := by
  have hz := Linear.sized hr hw hf
  cases ev with
  | propKF => exact rfl
  | propEKF => exact rfl
  | propBel => exact rfl
  | privKF => exact rfl
  | privEKF => exact rfl
  | setCov => exact trivial
  | jointR => obtain ⟨m, w, e⟩ := hz; exact ⟨m, ⟨w.ne, w.sorted, fun _ h => h, w.shape, w.free⟩, e⟩
  | jointZ => obtain ⟨m, w, e⟩ := hz; exact ⟨m, ⟨w.ne, w.sorted, fun _ h => h, w.shape, w.free⟩, e⟩

/-- A call is possible wherever the estimates of those it concerns are the same. -/
theorem wf_local' (hr : Rel dim h c) (hr' : Rel dim h' c') (hc : Same idn (Concerns ev) c c') (hk : ∀ p, Concerns ev p → (h'.find p).isSome)
    (hw : Wf dim h ev) (hf : Fits dim h ev) : Wf dim h' ev ∧ Fits dim h' ev := by
  have nw : ∀ {p t}, Concerns ev p → Newest h p t → Newest h' p t := by
    intro p t hp hn
    obtain ⟨g1, g2⟩ := hn.rel hr
    exact Newest.of_rel hr' (hk p hp) ((hc.tm p hp).trans g2)
  have fx : ∀ {p t}, Concerns ev p → Newest h p t → Hdl.fixedAt h' t p = Hdl.fixedAt h t p := by
    intro p t hp hn
    rw [Rename.fixedAt_eq hr hn, Rename.fixedAt_eq hr' (nw hp hn)]
    exact hc.fix p hp
  cases ev with
  | propKF id Phi Q ta tb => exact ⟨⟨nw rfl hw.1, hw.2⟩, hf⟩
  | propEKF id mb Phi Q ta tb => exact ⟨⟨nw rfl hw.1, hw.2⟩, hf⟩
  | propBel id bb Phi ta tb => exact ⟨⟨nw rfl hw.1, hw.2⟩, hf⟩
  | privKF id H R z t cfg => exact ⟨nw rfl hw, hf⟩
  | privEKF id H R r t cfg => exact ⟨nw rfl hw, hf⟩
  | setCov a b S t => exact ⟨⟨hw.1, nw (Or.inl rfl) hw.2.1, nw (Or.inr rfl) hw.2.2.1, hw.2.2.2⟩, trivial⟩
  | jointR dH R r t cfg =>
    obtain ⟨g1, ⟨m, g2, g3⟩, g5⟩ := hf
    refine ⟨⟨hw.1, fun p hp => nw hp (hw.2 p hp)⟩, g1, ⟨m, fun e he => ⟨(g2 e he).1, ?_⟩, g3⟩, g5⟩
    have hm : e.1 ∈ dH.keys := List.mem_map.mpr ⟨e, he, rfl⟩
    rw [fx hm (hw.2 _ hm)]; exact (g2 e he).2
  | jointZ dH z R t cfg =>
    obtain ⟨g1, ⟨m, g2, g3⟩, g5⟩ := hf
    refine ⟨⟨hw.1, fun p hp => nw hp (hw.2 p hp)⟩, g1, ⟨m, fun e he => ⟨(g2 e he).1, ?_⟩, g3⟩, g5⟩
    have hm : e.1 ∈ dH.keys := List.mem_map.mpr ⟨e, he, rfl⟩
    rw [fx hm (hw.2 _ hm)]; exact (g2 e he).2

theorem wf_local (hr : Rel dim h c) (hr' : Rel dim h' c') (hc : Same idn (Concerns ev) c c') (hk : ∀ p, (h.find p).isSome → (h'.find p).isSome)
    (hw : Wf dim h ev) (hf : Fits dim h ev) : Wf dim h' ev ∧ Fits dim h' ev :=
  wf_local' hr hr' hc (fun p hp => hk p (known hr hw hp)) hw hf

/-- The answer depends on the estimates of those the call concerns. -/
theorem answer_local (hnear : NearOk near) (hr : Rel dim h c) (hr' : Rel dim h' c') (hc : Same idn (Concerns ev) c c')
    (hw : Wf dim h ev) (hf : Fits dim h ev) (hw' : Wf dim h' ev) (hf' : Fits dim h' ev)
    (hs : run fp near pred h ev = .ok (h1, a)) (hs' : run fp near pred h' ev = .ok (h1', a')) : a' = a := by
  have hz := sizedOn hr hw hf
  cases a with
  | true =>
    cases a' with
    | true => rfl
    | false =>
      obtain ⟨c1, s1, -⟩ := Hdl.accepted hnear hr ev hw hs
      obtain ⟨r, o, e⟩ := outcome_of_turned (Rename.turned hnear hr' ev hw' hf' hs')
      obtain ⟨r2, o2, e2⟩ := Retime.outcome_ex (retimed_self ev) s1 o
      rw [outcome_same hc hz o2 o, e2] at e
      exact e
  | false =>
    cases a' with
    | false => rfl
    | true =>
      obtain ⟨c1, s1, -⟩ := Hdl.accepted hnear hr' ev hw' hs'
      obtain ⟨r, o, e⟩ := outcome_of_turned (Rename.turned hnear hr ev hw hf hs)
      obtain ⟨r2, o2, e2⟩ := Retime.outcome_ex' (retimed_self ev) s1 o
      rw [← outcome_same hc hz o o2, e2] at e
      exact e.symm

/-- Two calls that concern different instances, the other way round. -/
theorem swap (hnear : NearOk near) (hr : Rel dim h c) {e f : Ev} {b : Bool} (hd : ∀ p, Concerns e p → Concerns f p → False)
    (hwe : Wf dim h e) (hfe : Fits dim h e) (hse : run fp near pred h e = .ok (h1, a)) (hwf : Wf dim h1 f) (hff : Fits dim h1 f) (hsf : run fp near pred h1 f = .ok (h2, b)) :
    ∃ h1' h2' c2 c2', Wf dim h f ∧ Fits dim h f ∧ run fp near pred h f = .ok (h1', b) ∧ Wf dim h1' e ∧ Fits dim h1' e ∧ run fp near pred h1' e = .ok (h2', a) ∧
      Alike dim h2 h2' c2 c2' := by
  have sub : ∀ {A B : ℕ → Prop} {x y : Central}, (∀ p, B p → A p) → Same idn A x y → Same idn B x y := fun i s =>
    ⟨fun p hp => s.tm p (i p hp), fun p hp => s.mu p (i p hp), fun p hp => s.fix p (i p hp), fun p q hp hq => s.cov p q (i p hp) (i q hq)⟩
  have flip : ∀ {A : ℕ → Prop} {x y : Central}, Same idn A x y → Same idn A y x := fun s =>
    ⟨fun p hp => (s.tm p hp).symm, fun p hp => (s.mu p hp).symm, fun p hp => (s.fix p hp).symm, fun p q hp hq => (s.cov p q hp hq).symm⟩
  obtain ⟨c1, A1, r1⟩ := run_acts hnear hr hwe hse
  obtain ⟨c2, A2, r2⟩ := run_acts hnear r1 hwf hsf
  have d1 := Hdl.step_dom hr e hwe hse
  have d2 := Hdl.step_dom r1 f hwf hsf
  have ze := sizedOn hr hwe hfe
  have Sf : Same idn (Concerns f) c1 c := flip (sub (fun p h1 h2 => hd p h2 h1) (acts_frame ze A1))
  obtain ⟨hwf', hff'⟩ := wf_local r1 hr Sf (fun p hp => by rw [d1] at hp; exact hp) hwf hff
  obtain ⟨h1', b', hsf', -⟩ := Hdl.progress_rel (fp := fp) (pred := pred) hnear hr f hwf' hff'
  obtain rfl := answer_local hnear r1 hr Sf hwf hff hwf' hff' hsf hsf'
  obtain ⟨c1', A1', r1'⟩ := run_acts hnear hr hwf' hsf'
  have d1' := Hdl.step_dom hr f hwf' hsf'
  have zf := sizedOn hr hwf' hff'
  have Se : Same idn (Concerns e) c c1' := sub (fun p h1 h2 => hd p h1 h2) (acts_frame zf A1')
  obtain ⟨hwe', hfe'⟩ := wf_local hr r1' Se (fun p hp => by rw [d1']; exact hp) hwe hfe
  obtain ⟨h2', a', hse', -⟩ := Hdl.progress_rel (fp := fp) (pred := pred) hnear r1' e hwe' hfe'
  obtain rfl := answer_local hnear hr r1' Se hwe hfe hwe' hfe' hse hse'
  obtain ⟨c2', A2', r2'⟩ := run_acts hnear r1' hwe' hse'
  have d2' := Hdl.step_dom r1' e hwe' hse'
  have key := acts_comm hd ze zf A1 A2 A1' A2'
  refine ⟨h1', h2', c2, c2', hwf', hff', hsf', hwe', hfe', hse', r2, r2', fun p hp => ?_, fun p _ => (key p p).1, ⟨fun p _ => rfl, fun p _ => (key p p).2.1, fun p _ => (key p p).2.2.1, fun p q _ _ => (key p q).2.2.2⟩⟩
  rw [d2', d1', ← d1, ← d2]; exact hp

/-- A call that concerns none of the instances of the calls after it can be made after them. -/
theorem later (hnear : NearOk near) {e : Ev} {a : Bool} {v : List (Ev × Bool)} (u : List (Ev × Bool)) (hd : ∀ x ∈ u, ∀ p, Concerns x.1 p → Concerns e p → False)
    (hr : Rel dim h c) (hu : Used fp near pred dim h (((e, a) :: (u ++ v)).map (·.1)) (((e, a) :: (u ++ v)).map (·.2)) k) :
    ∃ k' c1 c1', Used fp near pred dim h ((u ++ (e, a) :: v).map (·.1)) ((u ++ (e, a) :: v).map (·.2)) k' ∧ Alike dim k k' c1 c1' := by
  induction u generalizing h c k with
  | nil =>
    obtain ⟨c1, hr1⟩ := used_rel hnear hr hu
    exact ⟨k, c1, c1, hu, hr1, hr1, fun _ h => h, fun _ _ => rfl, same_refl⟩
  | cons x u ih =>
    obtain ⟨f, b⟩ := x
    simp only [List.cons_append, List.map_cons] at hu
    cases hu with
    | @step _ h1 _ _ _ _ _ hwe hfe hse hu1 =>
      cases hu1 with
      | @step _ h2 _ _ _ _ _ hwf hff hsf hu2 =>
        obtain ⟨g1, g2, z1, z2, w1, f1, s1, w2, f2, s2, al2⟩ := swap hnear hr (fun p h1 h2 => hd (f, b) List.mem_cons_self p h2 h1) hwe hfe hse hwf hff hsf
        obtain ⟨k2, y1, y1', hu4, al3⟩ := al2.used hnear hu2
        obtain ⟨c1, -, r1⟩ := run_acts hnear hr w1 s1
        obtain ⟨k3, q, q', hu5, al4⟩ := ih (fun x hx => hd x (List.mem_cons_of_mem _ hx)) r1 (k := k2) (by
          simp only [List.map_cons]
          exact Used.step w2 f2 s2 hu4)
        refine ⟨k3, y1, q', ?_, al3.trans al4⟩
        simp only [List.cons_append, List.map_cons]
        exact Used.step w1 f1 s1 hu5

/-- In an order no instance can tell from the first, nothing before the first call concerns its instances. -/
theorem split {e : Ev × Bool} {l l' : List (Ev × Bool)} (hs : SameForEach (e :: l) l') :
    ∃ u v, l' = u ++ e :: v ∧ (∀ x ∈ u, ∀ p, Concerns x.1 p → Concerns e.1 p → False) ∧ SameForEach l (u ++ v) := by
  classical
  obtain ⟨hp, hv⟩ := hs
  obtain ⟨u, v, rfl, hu⟩ := List.eq_append_cons_of_mem (hp.subset (List.mem_cons_self (a := e) (l := l)))
  have hno : ∀ x ∈ u, ∀ p, Concerns x.1 p → Concerns e.1 p → False := by
    intro x hx p h1 h2
    have := hv p
    rw [List.filter_cons_of_pos (by simpa using h2), List.filter_append] at this
    have hne : u.filter (fun x => decide (Concerns x.1 p)) ≠ [] := by
      intro h0
      have : x ∈ u.filter (fun x => decide (Concerns x.1 p)) := List.mem_filter.mpr ⟨hx, by simpa using h1⟩
      rw [h0] at this
      cases this
    obtain ⟨y, w, hy⟩ := List.exists_cons_of_ne_nil hne
    rw [hy, List.cons_append] at this
    injection this with t1 t2
    have hy' : y ∈ u.filter (fun x => decide (Concerns x.1 p)) := by rw [hy]; exact List.mem_cons_self
    rw [← t1] at hy'
    exact hu (List.mem_filter.mp hy').1
  refine ⟨u, v, rfl, hno, ?_, fun p => ?_⟩
  · exact List.Perm.cons_inv (hp.trans List.perm_middle)
  · have := hv p
    by_cases hc : Concerns e.1 p
    · have h0 : u.filter (fun x => decide (Concerns x.1 p)) = [] := by
        rw [List.filter_eq_nil_iff]
        intro x hx h
        exact hno x hx p (by simpa using h) hc
      rw [List.filter_cons_of_pos (by simpa using hc), List.filter_append, h0, List.filter_cons_of_pos (by simpa using hc)] at this
      rw [List.filter_append, h0]
      exact (List.cons.inj this).2
    · rw [List.filter_cons_of_neg (by simpa using hc), List.filter_append, List.filter_cons_of_neg (by simpa using hc)] at this
      rw [List.filter_append]
      exact this

theorem reorder (hnear : NearOk near) (l : List (Ev × Bool)) {l' : List (Ev × Bool)} (hs : SameForEach l l') (hr : Rel dim h c)
    (hu : Used fp near pred dim h (l.map (·.1)) (l.map (·.2)) k) :
    ∃ k' c1 c1', Used fp near pred dim h (l'.map (·.1)) (l'.map (·.2)) k' ∧ Alike dim k k' c1 c1' := by
  induction l generalizing h c l' with
  | nil =>
    obtain rfl := hs.1.nil_eq
    cases hu
    exact ⟨k, c, c, Used.nil k, hr, hr, fun _ h => h, fun _ _ => rfl, same_refl⟩
  | cons e l ih =>
    obtain ⟨u, v, rfl, hno, hs1⟩ := split hs
    cases hu with
    | @step _ h1 _ _ _ _ _ hw hf hse hu1 =>
      obtain ⟨c1, -, r1⟩ := run_acts hnear hr hw hse
      obtain ⟨k1, d1, d1', hu2, al⟩ := ih hs1 r1 hu1
      obtain ⟨k2, d2, d2', hu3, al2⟩ := later (e := e.1) (a := e.2) hnear u hno hr (Used.step hw hf hse hu2)
      exact ⟨k2, d1, d2', hu3, al.trans al2⟩

/-- C135. Calls on freshly initialised instances of a handler, made in another order in which each single instance still sees the
calls that concern it in the same order: all calls are possible, they are answered as before, and the estimates afterwards are the
same, also of the correlations. -/
theorem c135_any_order (hnear : NearOk near) (dim : ℕ → ℕ) (i : ∃ c, Hdl.Init dim h c) (l l' : List (Ev × Bool)) (hs : SameForEach l l')
    (hu : Used fp near pred dim h (l.map (·.1)) (l.map (·.2)) k) :
    ∃ k', Used fp near pred dim h (l'.map (·.1)) (l'.map (·.2)) k' ∧ Groups.Agree dim k k' := by
  obtain ⟨c, i⟩ := i
  obtain ⟨k', c1, c1', hu', al⟩ := reorder hnear l hs i.rel hu
  exact ⟨k', hu', al.agree⟩

/-! ### Propagation in steps -/

theorem add_assoc' {A B C : Mat} {n m : ℕ} (hA : A.Shape n m) (hB : B.Shape n m) (hC : C.Shape n m) : A + B + C = A + (B + C) := by
  refine Mat.ext' rfl rfl fun i j _ _ => ?_
  have e1 : ∀ {X Y : Mat}, X.Shape n m → Y.Shape n m → ∀ i j, (X + Y).e i j = X.e i j + Y.e i j := fun hX hY => add_e _ _ (by rw [hX.1, hY.1]) (by rw [hX.2, hY.2])
  rw [e1 (X := A + B) hA hC, e1 hA hB, e1 hA (Y := B + C) hB, e1 hB hC]
  ring

theorem two_steps {F1 Q1 F2 Q2 : Mat} {id n : ℕ} {t1 t2 : ℤ} (c : Central) (hP : (c.cov id id).Shape n n) (h1 : F1.Shape n n) (q1 : Q1.Shape n n) (h2 : F2.Shape n n) (q2 : Q2.Shape n n) :
    let d := c.transform id F1 (F1 * c.mu id) (F1 * c.cov id id * F1.tr + Q1) t1 (c.fix id)
    d.transform id F2 (F2 * d.mu id) (F2 * d.cov id id * F2.tr + Q2) t2 (d.fix id) =
      c.transform id (F2 * F1) (F2 * F1 * c.mu id) (F2 * F1 * c.cov id id * (F2 * F1).tr + (F2 * Q1 * F2.tr + Q2)) t2 (c.fix id) := by
  have key : F2 * (F1 * c.cov id id * F1.tr + Q1) * F2.tr + Q2 = F2 * F1 * c.cov id id * (F2 * F1).tr + (F2 * Q1 * F2.tr + Q2) := by
    have hA : (F1 * c.cov id id * F1.tr).Shape n n := ⟨h1.1, h1.1⟩
    rw [Mat.mul_add _ _ _ (by rw [hA.1, q1.1]) (by rw [hA.2, q1.2]), Mat.add_mul (F2 * (F1 * c.cov id id * F1.tr)) (F2 * Q1) F2.tr rfl (by show Q1.cols = F1.rows; rw [q1.2, h1.1]),
      add_assoc' (A := F2 * (F1 * c.cov id id * F1.tr) * F2.tr) (B := F2 * Q1 * F2.tr) (n := n) (m := n) ⟨h2.1, h2.1⟩ ⟨h2.1, h2.1⟩ q2, tr_mul]
    simp only [Mat.mul_assoc]
  simp only [Central.transform, Central.mk.injEq, if_true, and_self, key]
  refine ⟨?_, ?_, ?_, ?_⟩
  · funext a; split <;> rfl
  · funext a; split <;> simp only [Mat.mul_assoc]
  · funext a b
    by_cases ha : a = id <;> by_cases hb : b = id <;> simp only [ha, hb, if_true, if_false, and_self, and_true, and_false]
    · rw [Mat.mul_assoc]
    · rw [tr_mul, Mat.mul_assoc]
  · funext a; split <;> rfl

theorem steps_acts (hnear : NearOk near) {id : ℕ} {ta tb : ℤ} {F Q : Mat} {l : List Ev} (hl : Steps id ta tb F Q l) {as : List Bool} (hr : Rel dim h c)
    (hu : Used fp near pred dim h l as k) : (∀ x ∈ as, x = true) ∧ F.Shape (dim id) (dim id) ∧ Q.Shape (dim id) (dim id) ∧ Q.tr = Q ∧ Newest h id ta ∧ ta < tb ∧
      (∀ p, (k.find p).isSome = (h.find p).isSome) ∧
      ∃ c1, Rel dim k c1 ∧ c1.tm id = tb ∧ (∀ p, p ≠ id → c1.tm p = c.tm p) ∧ Same idn (fun p => (h.find p).isSome) (c.transform id F (F * c.mu id) (F * c.cov id id * F.tr + Q) tb (c.fix id)) c1 := by
  induction hl generalizing h c as with
  | one F Q ta tb =>
    cases hu with
    | @step _ h1 _ _ a _ as hw hf hs r =>
      cases r
      obtain ⟨h1', a', e, ha⟩ := Hdl.progress_rel (fp := fp) (pred := pred) hnear hr _ hw hf
      rw [hs] at e
      obtain ⟨rfl, rfl⟩ := Prod.mk.inj (Res.ok.inj e)
      obtain rfl := ha trivial
      obtain ⟨c1, s1, r1⟩ := Hdl.accepted hnear hr _ hw hs
      cases s1
      refine ⟨by simp, hf.1, hf.2, hw.2.2, hw.1, hw.2.1, fun p => by rw [Hdl.step_dom hr _ hw hs], _, r1, ?_, fun p hp => ?_, same_refl⟩
      · simp [Central.transform]
      · simp [Central.transform, hp]
  | @cons F2 Q2 tm tb l F1 Q1 ta hl ih =>
    cases hu with
    | @step _ h1 _ _ a _ as hw hf hs r =>
      obtain ⟨h1', a', e, ha⟩ := Hdl.progress_rel (fp := fp) (pred := pred) hnear hr _ hw hf
      rw [hs] at e
      obtain ⟨rfl, rfl⟩ := Prod.mk.inj (Res.ok.inj e)
      obtain rfl := ha trivial
      obtain ⟨c1, s1, r1⟩ := Hdl.accepted hnear hr _ hw hs
      have hd := Hdl.step_dom hr _ hw hs
      obtain ⟨g1, g2, g3, g4, g5, g6, g7, c2, r2, g8, g9, g10⟩ := ih r1 r
      obtain ⟨fs, qs⟩ := hf
      obtain ⟨hN, hlt, hsym⟩ := hw
      cases s1
      have hid := (hN.rel hr).1
      have hP := hr.covS id id hid hid
      refine ⟨?_, ⟨g2.1, fs.2⟩, ⟨g2.1, g2.1⟩, ?_, hN, lt_trans hlt g6, fun p => by rw [g7, hd], c2, r2, g8, fun p hp => ?_, ?_⟩
      · intro x hx
        rcases List.mem_cons.mp hx with rfl | hx
        · rfl
        · exact g1 x hx
      · rw [Hdl.tr_add, g4, tr_mul, tr_mul, tr_tr, hsym, Mat.mul_assoc]
      · rw [g9 p hp]; simp [Central.transform, hp]
      · rw [← two_steps (t1 := tm) c hP fs qs g2 g3]
        exact ⟨fun p hp => g10.tm p (by rw [hd]; exact hp), fun p hp => g10.mu p (by rw [hd]; exact hp), fun p hp => g10.fix p (by rw [hd]; exact hp),
          fun p q hp hq => g10.cov p q (by rw [hd]; exact hp) (by rw [hd]; exact hq)⟩

/-- C136. An instance is propagated in several steps, or once with the transition matrix and the process noise of the whole
interval, in a history of other calls before and after: all the steps are accepted, and so is the single propagation; all calls made
afterwards are answered alike, and all estimates are the same, also of the correlations with the other instances. -/
theorem c136_at_once (hnear : NearOk near) (dim : ℕ → ℕ) (i : ∃ c, Hdl.Init dim h c) {before after l : List Ev} {as bs cs : List Bool} {id : ℕ} {ta tb : ℤ} {F Q : Mat}
    (hl : Steps id ta tb F Q l) (u1 : Used fp near pred dim h before as h1) (u2 : Used fp near pred dim h1 l bs h2) (u3 : Used fp near pred dim h2 after cs k) :
    (∀ b ∈ bs, b = true) ∧ ∃ h2' k', Used fp near pred dim h1 [.propKF id F Q ta tb] [true] h2' ∧ Groups.Agree dim h2 h2' ∧
      Used fp near pred dim h2' after cs k' ∧ Groups.Agree dim k k' := by
  obtain ⟨c, i⟩ := i
  obtain ⟨c1, r1⟩ := used_rel hnear i.rel u1
  obtain ⟨g1, g2, g3, g4, g5, g6, g7, c2, r2, g8, g9, g10⟩ := steps_acts hnear hl r1 u2
  have hw : Wf dim h1 (.propKF id F Q ta tb) := ⟨g5, g6, g4⟩
  have hf : Fits dim h1 (.propKF id F Q ta tb) := ⟨g2, g3⟩
  obtain ⟨h2', a, e, ha⟩ := Hdl.progress_rel (fp := fp) (pred := pred) hnear r1 _ hw hf
  obtain rfl := ha trivial
  obtain ⟨c2', s2, r2'⟩ := Hdl.accepted hnear r1 _ hw e
  have hd := Hdl.step_dom r1 _ hw e
  cases s2
  have al : Alike dim h2 h2' c2 (c1.transform id F (F * c1.mu id) (F * c1.cov id id * F.tr + Q) tb (c1.fix id)) := by
    refine ⟨r2, r2', fun p hp => by rw [hd, ← g7]; exact hp, fun p hp => ?_, fun p hp => rfl, fun p hp => ?_, fun p hp => ?_, fun p q hp hq => ?_⟩
    · by_cases hpi : p = id
      · subst hpi; rw [g8]; simp [Central.transform]
      · rw [g9 p hpi]; simp [Central.transform, hpi]
    · rw [g7] at hp; exact (g10.mu p hp).symm
    · rw [g7] at hp; exact (g10.fix p hp).symm
    · rw [g7] at hp hq; exact (g10.cov p q hp hq).symm
  obtain ⟨k', d, d', u3', al'⟩ := al.used hnear u3
  exact ⟨g1, h2', k', Used.step hw hf e (Used.nil _), al.agree, u3', al'.agree⟩

end handlers

/-! ## Example: a joint observation, then a propagation of 1 and an observation by 2 alone, in either order; 1 in two steps, or one -/

namespace Example
open Hdl.Example (s s_shape s_tr near nearOk pred cfg gate)
open Rename.Example (dim dA)
open Linear.Example (hdl init newest)

noncomputable def joint : Ev := .jointR dA (s 1) (s 1) 0 cfg
noncomputable def alone : Ev := .privKF 2 (s 3) (s 1) (s 2) 0 cfg
noncomputable def move : Ev := .propKF 1 (s 2) (s 1) 0 3
noncomputable def more : Ev := .propKF 1 (s 5) (s 4) 3 5

theorem used : ∃ h1 h2 k, Used FP.exact near pred dim (hdl 3 5) [joint] [true] h1 ∧ Used FP.exact near pred dim h1 [move, more] [true, true] h2 ∧
    Used FP.exact near pred dim h2 [alone] [true] k := by
  have hk : ∀ p ∈ dA.keys, p = 1 ∨ p = 2 := by intro p hp; simpa [dA, SMap.keys] using hp
  have hw : Wf dim (hdl 3 5) joint := ⟨by simp [dA, SMap.Sorted], fun p hp => newest (hk p hp)⟩
  have hf : Fits dim (hdl 3 5) joint := by
    refine ⟨by simp [dA], ⟨1, fun e he => ?_, s_shape 1, s_shape 1⟩, gate⟩
    have he' : e = (1, s 1) ∨ e = (2, s (-2)) := by simpa [dA] using he
    rcases he' with rfl | rfl
    · exact ⟨s_shape 1, rfl⟩
    · exact ⟨s_shape (-2), rfl⟩
  have hi := (init 3 5).rel
  have k1 := (newest (m1 := 3) (m2 := 5) (Or.inl rfl)).rel hi
  have k2 := (newest (m1 := 3) (m2 := 5) (Or.inr rfl)).rel hi
  obtain ⟨h1, a, e1, ha⟩ := Hdl.progress_rel (fp := FP.exact) (pred := pred) nearOk hi _ hw hf
  obtain rfl := ha rfl
  obtain ⟨c1, s1, r1⟩ := Hdl.accepted nearOk hi _ hw e1
  have d1 := Hdl.step_dom hi _ hw e1
  have t1 : c1.tm 1 = 0 ∧ c1.tm 2 = 0 := by cases s1; exact ⟨k1.2, k2.2⟩
  have hw2 : Wf dim h1 move := ⟨Newest.of_rel r1 (by rw [d1]; exact k1.1) t1.1, by norm_num, s_tr 1⟩
  have hf2 : Fits dim h1 move := ⟨s_shape 2, s_shape 1⟩
  obtain ⟨h2, a, e2, ha⟩ := Hdl.progress_rel (fp := FP.exact) (pred := pred) nearOk r1 _ hw2 hf2
  obtain rfl := ha trivial
  obtain ⟨c2, s2, r2⟩ := Hdl.accepted nearOk r1 _ hw2 e2
  have d2 := Hdl.step_dom r1 _ hw2 e2
  have t2 : c2.tm 1 = 3 ∧ c2.tm 2 = 0 := by cases s2; simp [Central.transform, t1]
  have hw3 : Wf dim h2 more := ⟨Newest.of_rel r2 (by rw [d2, d1]; exact k1.1) t2.1, by norm_num, s_tr 4⟩
  have hf3 : Fits dim h2 more := ⟨s_shape 5, s_shape 4⟩
  obtain ⟨h3, a, e3, ha⟩ := Hdl.progress_rel (fp := FP.exact) (pred := pred) nearOk r2 _ hw3 hf3
  obtain rfl := ha trivial
  obtain ⟨c3, s3, r3⟩ := Hdl.accepted nearOk r2 _ hw3 e3
  have d3 := Hdl.step_dom r2 _ hw3 e3
  have t3 : c3.tm 2 = 0 := by cases s3; simp [Central.transform, t2]
  have hw4 : Wf dim h3 alone := Newest.of_rel r3 (by rw [d3, d2, d1]; exact k2.1) t3
  have hf4 : Fits dim h3 alone := ⟨rfl, s_shape 1, s_shape 2, gate⟩
  obtain ⟨h4, a, e4, ha⟩ := Hdl.progress_rel (fp := FP.exact) (pred := pred) nearOk r3 _ hw4 hf4
  obtain rfl := ha rfl
  exact ⟨h1, h3, h4, Used.step hw hf e1 (Used.nil _), Used.step hw2 hf2 e2 (Used.step hw3 hf3 e3 (Used.nil _)), Used.step hw4 hf4 e4 (Used.nil _)⟩

theorem append {fp : FP} {near : Mat → Mat} {pred : ℕ → Inst → Int → Inst × Bool} {dim : ℕ → ℕ} {h h1 k : Hdl} {l l' : List Ev} {as as' : List Bool}
    (u : Used fp near pred dim h l as h1) (v : Used fp near pred dim h1 l' as' k) : Used fp near pred dim h (l ++ l') (as ++ as') k := by
  induction u with
  | nil => exact v
  | step a b c _ ih => exact Used.step a b c (ih v)

/-- The observation by 2 alone is made before, between or after the two propagations of 1. -/
example : ∃ k k', Used FP.exact near pred dim (hdl 3 5) [joint, move, more, alone] [true, true, true, true] k ∧
    Used FP.exact near pred dim (hdl 3 5) [joint, alone, move, more] [true, true, true, true] k' ∧ Groups.Agree dim k k' := by
  obtain ⟨h1, h2, k, u1, u2, u3⟩ := used
  have u := append u1 (append u2 u3)
  obtain ⟨k', u', e⟩ := c135_any_order nearOk dim ⟨_, init 3 5⟩ [(joint, true), (move, true), (more, true), (alone, true)] [(joint, true), (alone, true), (move, true), (more, true)]
    (by
      refine ⟨?_, fun p => ?_⟩
      · refine List.Perm.cons _ ?_
        exact (List.perm_append_comm (l₁ := [(move, true), (more, true)]) (l₂ := [(alone, true)]))
      · have h12 : ∀ {p : ℕ}, p = 1 → ¬ p = 2 := by intro p h; omega
        by_cases h1 : p = 1
        · have h2 := h12 h1
          by_cases hj : Concerns joint p <;>
            simp [List.filter_cons, hj, show Concerns move p from h1, show Concerns more p from h1, show ¬ Concerns alone p from h2]
        · by_cases hj : Concerns joint p <;> by_cases h2 : Concerns alone p <;>
            simp [List.filter_cons, hj, show ¬ Concerns move p from h1, show ¬ Concerns more p from h1, h2]) u
  exact ⟨k, k', u, u', e⟩

/-- One propagation over the whole interval instead of two. -/
example : ∃ k k' F Q, Used FP.exact near pred dim (hdl 3 5) [joint, move, more, alone] [true, true, true, true] k ∧
    Used FP.exact near pred dim (hdl 3 5) [joint, .propKF 1 F Q 0 5, alone] [true, true, true] k' ∧ Groups.Agree dim k k' := by
  obtain ⟨h1, h2, k, u1, u2, u3⟩ := used
  obtain ⟨-, h2', k', v2, -, v3, e⟩ := c136_at_once nearOk dim ⟨_, init 3 5⟩ (Steps.cons (s 2) (s 1) 0 (Steps.one (id := 1) (s 5) (s 4) 3 5)) u1 u2 u3
  exact ⟨k, k', _, _, append u1 (append u2 u3), append u1 (append v2 v3), e⟩

end Example
end Commute
end Ikf
