import Verif.Spec.Groups
import Verif.Props.Linear

/-!
# Groups of instances that never meet do not influence each other (C132)
-/

namespace Ikf
open Mat

namespace Groups
open Hdl (Rel Newest Wf Fits run NearOk)
open Rename (Used Same Both Renamed SameDict Sized Whole Turned)

section central
variable {dim : ℕ → ℕ} {near : Mat → Mat} {c c' c1 c1' : Central} {D : ℕ → Prop}

abbrev idn : ℕ → ℕ := fun p => p

/-- The correction an observation leads to. -/
inductive Outcome (dim : ℕ → ℕ) (c : Central) : Ev → CorrRes → Prop
  | privKF (id H R z t cfg res) (h : correctionStep H R (z - H * c.mu id) (c.cov id id) cfg = .ok res) : Outcome dim c (.privKF id H R z t cfg) res
  | privEKF (id H R r t cfg res) (h : correctionStep H R r (c.cov id id) cfg = .ok res) : Outcome dim c (.privEKF id H R r t cfg) res
  | jointR (dH R r t cfg H S res) (hH : SideBySide dH H) (hS : StackedCov (participants dim c dH) c.cov S)
      (h : correctionStep H R r (stabM S (1 / 10^12)) cfg = .ok res) : Outcome dim c (.jointR dH R r t cfg) res
  | jointZ (dH z R t cfg H S m res) (hH : SideBySide dH H) (hS : StackedCov (participants dim c dH) c.cov S) (hm : StackedMean (participants dim c dH) c.mu m)
      (h : correctionStep H R (z - H * m) (stabM S (1 / 10^12)) cfg = .ok res) : Outcome dim c (.jointZ dH z R t cfg) res

theorem outcome_of_turned {ev : Ev} (h : Turned dim c ev) : ∃ res, Outcome dim c ev res ∧ res.rejected = true := by
  cases ev with
  | privKF id H R z t cfg => obtain ⟨res, h1, h2⟩ := h; exact ⟨res, .privKF _ _ _ _ _ _ _ h1, h2⟩
  | privEKF id H R z t cfg => obtain ⟨res, h1, h2⟩ := h; exact ⟨res, .privEKF _ _ _ _ _ _ _ h1, h2⟩
  | jointR dH R r t cfg => obtain ⟨H, S, res, h1, h2, h3, h4⟩ := h; exact ⟨res, .jointR _ _ _ _ _ _ _ _ h1 h2 h3, h4⟩
  | jointZ dH z R t cfg => obtain ⟨H, S, m, res, h1, h2, h3, h4, h5⟩ := h; exact ⟨res, .jointZ _ _ _ _ _ _ _ _ _ h1 h2 h3 h4, h5⟩
  | propKF => exact h.elim
  | propEKF => exact h.elim
  | propBel => exact h.elim
  | setCov => exact h.elim

theorem parts_same (hc : Same idn D c c') {dH : SMap Mat} (hD : ∀ p ∈ dH.keys, D p) : participants dim c' dH = participants dim c dH := by
  unfold participants
  congr 1
  exact List.filter_congr fun p hp => by have := hc.fix p (hD p hp); simp only [idn] at this; rw [this]

theorem part_mem {dH : SMap Mat} (hD : ∀ p ∈ dH.keys, D p) : ∀ p ∈ participants dim c dH, D p.1 := by
  intro p hp
  unfold participants at hp
  obtain ⟨q, hq, rfl⟩ := List.mem_map.mp hp
  exact hD q (List.mem_filter.mp hq).1

theorem outcome_same (hc : Same idn D c c') {ev : Ev} (hz : Sized dim c D ev) {r r' : CorrRes} (h : Outcome dim c ev r) (h' : Outcome dim c' ev r') : r' = r := by
  cases h with
  | privKF id H R z t cfg res h =>
    have hd : D id := hz
    cases h' with
    | privKF _ _ _ _ _ _ res' h' =>
      have e1 := hc.mu id hd
      have e2 := hc.cov id id hd hd
      simp only [idn] at e1 e2
      rw [e1, e2, h] at h'
      exact (Res.ok.inj h').symm
  | privEKF id H R z t cfg res h =>
    have hd : D id := hz
    cases h' with
    | privEKF _ _ _ _ _ _ res' h' =>
      have e2 := hc.cov id id hd hd
      simp only [idn] at e2
      rw [e2, h] at h'
      exact (Res.ok.inj h').symm
  | jointR dH R r t cfg H S res hH hS h =>
    obtain ⟨m, hw, -, -⟩ := hz
    cases h' with
    | jointR _ _ _ _ _ H' S' res' hH' hS' h' =>
      rw [parts_same hc hw.known] at hS'
      cases Linear.side_unique hw.sorted hw.ne hH hH'
      cases Linear.cov_unique (Rename.keys_nodup hw.sorted) (fun p hp q hq => hc.cov _ _ (part_mem hw.known p hp) (part_mem hw.known q hq)) hS hS'
      rw [h] at h'
      exact (Res.ok.inj h').symm
  | jointZ dH z R t cfg H S x res hH hS hx h =>
    obtain ⟨m, hw, -, -⟩ := hz
    cases h' with
    | jointZ _ _ _ _ _ H' S' x' res' hH' hS' hx' h' =>
      rw [parts_same hc hw.known] at hS' hx'
      cases Linear.side_unique hw.sorted hw.ne hH hH'
      cases Linear.cov_unique (Rename.keys_nodup hw.sorted) (fun p hp q hq => hc.cov _ _ (part_mem hw.known p hp) (part_mem hw.known q hq)) hS hS'
      have hxx : x' = x := by
        refine Mat.ext' (by rw [hx.1.1, hx'.1.1]) (by rw [hx.1.2, hx'.1.2]) fun i j hi hj => ?_
        rw [hx'.1.1] at hi
        rw [hx'.1.2] at hj
        obtain ⟨p, hp, k, hk, rfl⟩ := off_cover (Rename.keys_nodup hw.sorted) hi
        obtain rfl : j = 0 := by omega
        have e := hc.mu _ (part_mem hw.known p hp)
        simp only [idn] at e
        rw [hx.2 p hp k hk, hx'.2 p hp k hk, e]
      rw [hxx, h] at h'
      exact (Res.ok.inj h').symm

theorem outcome_of_step {ev : Ev} (hs : SpecStep dim near c ev c1) {r : CorrRes} (h : Outcome dim c ev r) (hD : Sized dim c D ev) : r.rejected = false := by
  have hc : Same idn D c c := ⟨fun _ _ => rfl, fun _ _ => rfl, fun _ _ => rfl, fun _ _ _ _ => rfl⟩
  cases hs with
  | propKF => cases h
  | propEKF => cases h
  | propBel => cases h
  | setCov => cases h
  | privKF id H R z t cfg res h1 h2 => rw [outcome_same hc hD (.privKF _ _ _ _ _ _ _ h1) h]; exact h2
  | privEKF id H R z t cfg res h1 h2 => rw [outcome_same hc hD (.privEKF _ _ _ _ _ _ _ h1) h]; exact h2
  | jointR dH R r t cfg H S res hH hS h1 h2 => rw [outcome_same hc hD (.jointR _ _ _ _ _ _ _ _ hH hS h1) h]; exact h2
  | jointZ dH z R t cfg H S m res hH hS hm h1 h2 => rw [outcome_same hc hD (.jointZ _ _ _ _ _ _ _ _ _ hH hS hm h1) h]; exact h2

/-- The size conditions carry over. -/
theorem sized_same (hc : Same idn D c c') {ev : Ev} (hz : Sized dim c D ev) : Sized dim c' D ev := by
  have hw : ∀ {dH : SMap Mat} {m : ℕ}, Whole dim c D dH m → Whole dim c' D dH m := fun hw =>
    ⟨hw.ne, hw.sorted, hw.known, hw.shape, fun p hp => by have e := hc.fix p (hw.known p hp); simp only [idn] at e; rw [e]; exact hw.free p hp⟩
  cases ev with
  | jointR dH R r t cfg => obtain ⟨m, h1, h2⟩ := hz; exact ⟨m, hw h1, h2⟩
  | jointZ dH z R t cfg => obtain ⟨m, h1, h2⟩ := hz; exact ⟨m, hw h1, h2⟩
  | propKF => exact hz
  | propEKF => exact hz
  | propBel => exact hz
  | setCov => exact hz
  | privKF => exact hz
  | privEKF => exact hz

theorem step_same (hc : Same idn D c c') {ev : Ev} (hz : Sized dim c D ev) (hs : SpecStep dim near c ev c1) (hs' : SpecStep dim near c' ev c1') : Same idn D c1 c1' := by
  have hi : Function.Injective idn := fun _ _ h => h
  have joint : ∀ {dH : SMap Mat} {m : ℕ} (P dx : Mat), Whole dim c D dH m → Same idn D (c.joint (participants dim c dH) P dx) (c'.joint (participants dim c' dH) P dx) := by
    intro dH m P dx hw
    rw [parts_same hc hw.known]
    have hn := Rename.keys_nodup (dim := dim) (c := c) hw.sorted
    exact hc.joint (e := Equiv.refl _) hi ⟨hn, hn, by simp, rfl, fun p hp i hi k hk => hk⟩ (fun _ _ => rfl) (fun _ => rfl)
  cases hs with
  | propKF id Phi Q ta tb =>
    have hd : D id := hz
    cases hs'
    have e1 := hc.mu id hd
    have e2 := hc.cov id id hd hd
    have e3 := hc.fix id hd
    simp only [idn] at e1 e2 e3
    rw [e1, e2, e3]
    exact hc.transform hi id _ _ _ _ _
  | propEKF id mb Phi Q ta tb =>
    have hd : D id := hz
    cases hs'
    have e2 := hc.cov id id hd hd
    have e3 := hc.fix id hd
    simp only [idn] at e2 e3
    rw [e2, e3]
    exact hc.transform hi id _ _ _ _ _
  | propBel id bb Phi ta tb =>
    cases hs'
    exact hc.transform hi id _ _ _ _ _
  | setCov a b S t =>
    cases hs'
    exact hc.setCov hi a b S
  | privKF id H R z t cfg res h1 h2 =>
    have hd : D id := hz
    cases hs' with
    | privKF _ _ _ _ _ _ res' h1' h2' =>
      cases outcome_same hc hz (.privKF _ _ _ _ _ _ _ h1) (.privKF _ _ _ _ _ _ _ h1')
      have e1 := hc.mu id hd
      have e2 := hc.cov id id hd hd
      have e3 := hc.fix id hd
      simp only [idn] at e1 e2 e3
      rw [e1, e2, e3]
      exact hc.transform hi id _ _ _ _ _
  | privEKF id H R z t cfg res h1 h2 =>
    have hd : D id := hz
    cases hs' with
    | privEKF _ _ _ _ _ _ res' h1' h2' =>
      cases outcome_same hc hz (.privEKF _ _ _ _ _ _ _ h1) (.privEKF _ _ _ _ _ _ _ h1')
      have e1 := hc.mu id hd
      have e2 := hc.cov id id hd hd
      have e3 := hc.fix id hd
      simp only [idn] at e1 e2 e3
      rw [e1, e2, e3]
      exact hc.transform hi id _ _ _ _ _
  | jointR dH R r t cfg H S res hH hS h1 h2 =>
    cases hs' with
    | jointR _ _ _ _ _ H' S' res' hH' hS' h1' h2' =>
      cases outcome_same hc hz (.jointR _ _ _ _ _ _ _ _ hH hS h1) (.jointR _ _ _ _ _ _ _ _ hH' hS' h1')
      obtain ⟨m, hw, -, -⟩ := hz
      exact joint _ _ hw
  | jointZ dH z R t cfg H S x res hH hS hx h1 h2 =>
    cases hs' with
    | jointZ _ _ _ _ _ H' S' x' res' hH' hS' hx' h1' h2' =>
      cases outcome_same hc hz (.jointZ _ _ _ _ _ _ _ _ _ hH hS hx h1) (.jointZ _ _ _ _ _ _ _ _ _ hH' hS' hx' h1')
      obtain ⟨m, hw, -, -⟩ := hz
      exact joint _ _ hw

/-- What a call within the group `D` leaves alone: the estimates of the others, and zero correlations with them. -/
theorem step_frame {E : ℕ → Prop} (hDE : ∀ p, D p → E p → False) {ev : Ev} (hz : Sized dim c D ev)
    (hset : ∀ a b S t, ev = .setCov a b S t → D a ∧ D b) (hs : SpecStep dim near c ev c1) :
    Same idn E c c1 ∧ ((∀ p q, D p → E q → ∀ i j, (c.cov p q).e i j = 0 ∧ (c.cov q p).e i j = 0) →
      ∀ p q, D p → E q → ∀ i j, (c1.cov p q).e i j = 0 ∧ (c1.cov q p).e i j = 0) := by
  classical
  have zl : ∀ (F A : Mat), (∀ i j, A.e i j = 0) → ∀ i j, (F * A).e i j = 0 := by
    intro F A hA i j
    rw [mul_e]
    exact Finset.sum_eq_zero fun k _ => by rw [hA]; ring
  have zr : ∀ (F A : Mat), (∀ i j, A.e i j = 0) → ∀ i j, (A * F).e i j = 0 := by
    intro F A hA i j
    rw [mul_e]
    exact Finset.sum_eq_zero fun k _ => by rw [hA]; ring
  have tr : ∀ (id : ℕ) (F m P : Mat) (t : Int) (fx : Bool), D id → Same idn E c (c.transform id F m P t fx) ∧
      ((∀ p q, D p → E q → ∀ i j, (c.cov p q).e i j = 0 ∧ (c.cov q p).e i j = 0) →
      ∀ p q, D p → E q → ∀ i j, ((c.transform id F m P t fx).cov p q).e i j = 0 ∧ ((c.transform id F m P t fx).cov q p).e i j = 0) := by
    intro id F m P t fx hd
    have ne : ∀ q, E q → q ≠ id := fun q hq h => hDE id hd (h ▸ hq)
    refine ⟨⟨fun p hp => if_neg (ne p hp), fun p hp => if_neg (ne p hp), fun p hp => if_neg (ne p hp), fun p q hp hq => ?_⟩, fun h0 p q hp hq i j => ?_⟩
    · simp only [Central.transform, idn, ne p hp, ne q hq, if_false, and_self]
    · simp only [Central.transform, ne q hq, and_false, false_and, if_false]
      split
      · exact ⟨zl _ _ (fun i j => (h0 p q hp hq i j).1) i j, zr _ _ (fun i j => (h0 p q hp hq i j).2) i j⟩
      · exact h0 p q hp hq i j
  have jo : ∀ (dH : SMap Mat) (m : ℕ) (P dx : Mat), Whole dim c D dH m → Same idn E c (c.joint (participants dim c dH) P dx) ∧
      ((∀ p q, D p → E q → ∀ i j, (c.cov p q).e i j = 0 ∧ (c.cov q p).e i j = 0) →
      ∀ p q, D p → E q → ∀ i j, ((c.joint (participants dim c dH) P dx).cov p q).e i j = 0 ∧ ((c.joint (participants dim c dH) P dx).cov q p).e i j = 0) := by
    intro dH m P dx hw
    have ne : ∀ q, E q → q ∉ (participants dim c dH).map (·.1) := by
      intro q hq h
      obtain ⟨x, hx, rfl⟩ := List.mem_map.mp h
      exact hDE _ (part_mem hw.known x hx) hq
    refine ⟨⟨fun p hp => rfl, fun p hp => if_neg (ne p hp), fun p hp => rfl, fun p q hp hq => ?_⟩, fun h0 p q hp hq i j => ?_⟩
    · simp only [Central.joint, idn, ne p hp, ne q hq, if_false, and_self]
    · simp only [Central.joint, ne q hq, and_false, false_and, if_false]
      split
      · exact ⟨zl _ _ (fun i j => (h0 p q hp hq i j).1) i j, zr _ _ (fun i j => (h0 p q hp hq i j).2) i j⟩
      · exact h0 p q hp hq i j
  cases hs with
  | propKF => exact tr _ _ _ _ _ _ hz
  | propEKF => exact tr _ _ _ _ _ _ hz
  | propBel => exact tr _ _ _ _ _ _ hz
  | privKF => exact tr _ _ _ _ _ _ hz
  | privEKF => exact tr _ _ _ _ _ _ hz
  | jointR => obtain ⟨m, hw, -, -⟩ := hz; exact jo _ _ _ _ hw
  | jointZ => obtain ⟨m, hw, -, -⟩ := hz; exact jo _ _ _ _ hw
  | setCov a b S t =>
    obtain ⟨ha, hb⟩ := hset _ _ _ _ rfl
    have n1 : ∀ q, E q → q ≠ a := fun q hq h => hDE a ha (h ▸ hq)
    have n2 : ∀ q, E q → q ≠ b := fun q hq h => hDE b hb (h ▸ hq)
    refine ⟨⟨fun _ _ => rfl, fun _ _ => rfl, fun _ _ => rfl, fun p q hp hq => ?_⟩, fun h0 p q hp hq i j => ?_⟩
    · simp only [Central.setCov, idn, n1 p hp, n2 p hp, false_and, if_false]
    · simp only [Central.setCov, n1 q hq, n2 q hq, and_false, false_and, if_false]
      exact h0 p q hp hq i j

end central

/-! ## The handlers -/

section handlers
variable {fp : FP} {near : Mat → Mat} {pred pred' : ℕ → Inst → Int → Inst × Bool} {dim : ℕ → ℕ} {hA hB h kA kB k : Hdl} {cA cB c : Central}

/-- The invariant: one group, the other, both together. -/
structure Three (dim : ℕ → ℕ) (hA hB h : Hdl) (cA cB c : Central) : Prop where
  a : Both idn dim dim hA h cA c
  b : Both idn dim dim hB h cB c
  disjoint : ∀ p, (hA.find p).isSome → (hB.find p).isSome → False
  zero : ∀ p q, (hA.find p).isSome → (hB.find q).isSome → ∀ i j, (c.cov p q).e i j = 0 ∧ (c.cov q p).e i j = 0

theorem Three.swap (ht : Three dim hA hB h cA cB c) : Three dim hB hA h cB cA c :=
  ⟨ht.b, ht.a, fun p h1 h2 => ht.disjoint p h2 h1, fun p q hp hq i j => (ht.zero q p hq hp i j).symm⟩

theorem renamed_self {h : Hdl} {ev : Ev} (hw : Wf dim h ev) : Renamed idn ev ev := by
  have d : ∀ dH : SMap Mat, dH.Sorted → SameDict idn dH dH := fun dH hd => ⟨hd, by simp⟩
  cases ev with
  | propKF => exact .propKF _ _ _ _ _
  | propEKF => exact .propEKF _ _ _ _ _ _
  | propBel => exact .propBel _ _ _ _ _
  | privKF => exact .privKF _ _ _ _ _ _
  | privEKF => exact .privEKF _ _ _ _ _ _
  | setCov => exact .setCov _ _ _ _
  | jointR => exact .jointR _ _ _ _ _ _ (d _ hw.1)
  | jointZ => exact .jointZ _ _ _ _ _ _ (d _ hw.1)

/-- A call on the first group. -/
theorem Three.step (hnear : NearOk near) (ht : Three dim hA hB h cA cB c) {ev : Ev} (hw : Wf dim hA ev) (hf : Fits dim hA ev) {r : Bool}
    (hs : run fp near pred hA ev = .ok (kA, r)) :
    Wf dim h ev ∧ Fits dim h ev ∧ ∃ k cA1 c1, run fp near pred' h ev = .ok (k, r) ∧ Three dim kA hB k cA1 cB c1 := by
  have hi : Function.Injective idn := fun _ _ h => h
  obtain ⟨hw', hf'⟩ := ht.a.wf hi (fun _ => rfl) (renamed_self hw) hw hf
  refine ⟨hw', hf', ?_⟩
  have hz := ht.a.sized hw hf
  have hz' := sized_same ht.a.same hz
  obtain ⟨k, r', hs', -⟩ := Hdl.progress_rel (fp := fp) (pred := pred') hnear ht.a.rel' ev hw' hf'
  have hdom := Hdl.step_dom ht.a.rel ev hw hs
  have hdom' := Hdl.step_dom ht.a.rel' ev hw' hs'
  cases r with
  | true =>
    obtain ⟨cA1, s1, r1⟩ := Hdl.accepted hnear ht.a.rel ev hw hs
    cases r' with
    | false =>
      obtain ⟨res, o1, o2⟩ := outcome_of_turned (Rename.turned hnear ht.a.rel' ev hw' hf' hs')
      have : ∃ res', Outcome dim cA ev res' := by
        cases s1 with
        | propKF => cases o1
        | propEKF => cases o1
        | propBel => cases o1
        | setCov => cases o1
        | privKF _ _ _ _ _ _ res' h1 h2 => exact ⟨res', .privKF _ _ _ _ _ _ _ h1⟩
        | privEKF _ _ _ _ _ _ res' h1 h2 => exact ⟨res', .privEKF _ _ _ _ _ _ _ h1⟩
        | jointR _ _ _ _ _ H S res' hH hS h1 h2 => exact ⟨res', .jointR _ _ _ _ _ _ _ _ hH hS h1⟩
        | jointZ _ _ _ _ _ H S m res' hH hS hm h1 h2 => exact ⟨res', .jointZ _ _ _ _ _ _ _ _ _ hH hS hm h1⟩
      obtain ⟨res', o3⟩ := this
      have e1 := outcome_same ht.a.same hz o3 o1
      have e2 := outcome_of_step s1 o3 hz
      rw [e1, e2] at o2
      simp at o2
    | true =>
      obtain ⟨c1, s1', r1'⟩ := Hdl.accepted hnear ht.a.rel' ev hw' hs'
      have hset : ∀ a b S t, ev = .setCov a b S t → (hA.find a).isSome ∧ (hA.find b).isSome := by
        rintro a b S t rfl
        exact ⟨(hw.2.1.rel ht.a.rel).1, (hw.2.2.1.rel ht.a.rel).1⟩
      obtain ⟨f1, f2⟩ := step_frame (E := fun p => (hB.find p).isSome) ht.disjoint hz' hset s1'
      refine ⟨k, cA1, c1, hs', ⟨r1, r1', fun p hp => by rw [hdom']; exact ht.a.known p (by rw [← hdom]; exact hp), ?_⟩,
        ⟨ht.b.rel, r1', fun p hp => by rw [hdom']; exact ht.b.known p hp, ?_⟩, fun p h1 h2 => ht.disjoint p (by rw [← hdom]; exact h1) h2,
        fun p q hp hq => f2 ht.zero p q (by rw [← hdom]; exact hp) hq⟩
      · have := step_same ht.a.same hz s1 s1'
        simp only [hdom _]
        exact this
      · exact ⟨fun p hp => (f1.tm p hp).trans (ht.b.same.tm p hp), fun p hp => (f1.mu p hp).trans (ht.b.same.mu p hp),
          fun p hp => (f1.fix p hp).trans (ht.b.same.fix p hp), fun p q hp hq => (f1.cov p q hp hq).trans (ht.b.same.cov p q hp hq)⟩
  | false =>
    obtain ⟨res, o1, o2⟩ := outcome_of_turned (Rename.turned hnear ht.a.rel ev hw hf hs)
    cases r' with
    | true =>
      obtain ⟨c1, s1', r1'⟩ := Hdl.accepted hnear ht.a.rel' ev hw' hs'
      have : ∃ res', Outcome dim c ev res' := by
        cases s1' with
        | propKF => cases o1
        | propEKF => cases o1
        | propBel => cases o1
        | setCov => cases o1
        | privKF _ _ _ _ _ _ res' h1 h2 => exact ⟨res', .privKF _ _ _ _ _ _ _ h1⟩
        | privEKF _ _ _ _ _ _ res' h1 h2 => exact ⟨res', .privEKF _ _ _ _ _ _ _ h1⟩
        | jointR _ _ _ _ _ H S res' hH hS h1 h2 => exact ⟨res', .jointR _ _ _ _ _ _ _ _ hH hS h1⟩
        | jointZ _ _ _ _ _ H S m res' hH hS hm h1 h2 => exact ⟨res', .jointZ _ _ _ _ _ _ _ _ _ hH hS hm h1⟩
      obtain ⟨res', o3⟩ := this
      have e1 := outcome_same ht.a.same hz o1 o3
      have e2 := outcome_of_step s1' o3 hz'
      rw [← e1, e2] at o2
      simp at o2
    | false =>
      refine ⟨k, cA, c, hs', ?_⟩
      rw [Hdl.rejected ht.a.rel ev hw hs, Hdl.rejected ht.a.rel' ev hw' hs']
      exact ht

theorem Three.read (ht : Three dim hA hB h cA cB c) : Agree dim hA h ∧ Agree dim hB h ∧ Apart dim hA hB h := by
  refine ⟨ht.a.read, ht.b.read, fun p q t hp hq np nq => ?_⟩
  have hp' := ht.a.known p hp
  have hq' := ht.b.known q hq
  have z1 : c.cov p q = Mat.zero (dim p) (dim q) := by
    have s := ht.a.rel'.covS p q hp' hq'
    refine Mat.ext' (by rw [s.1]; rfl) (by rw [s.2]; rfl) fun i j _ _ => ?_
    rw [(ht.zero p q hp hq i j).1, zero_e]
  have z2 : c.cov q p = Mat.zero (dim q) (dim p) := by
    have s := ht.a.rel'.covS q p hq' hp'
    refine Mat.ext' (by rw [s.1]; rfl) (by rw [s.2]; rfl) fun i j _ _ => ?_
    rw [(ht.zero p q hp hq i j).2, zero_e]
  have i1 := ht.a.rel'.isCov np nq
  have i2 := ht.a.rel'.isCov nq np
  rw [z1] at i1
  rw [z2] at i2
  exact ⟨i1, i2⟩

theorem both_init {h h' : Hdl} {c c' : Central} (hi : Hdl.Init dim h c) (hi' : Hdl.Init dim h' c') (hsame : ∀ p i, h.find p = some i → h'.find p = some i) :
    Both idn dim dim h h' c c' := by
  have hrd : ∀ p, (h.find p).isSome → c'.tm p = c.tm p ∧ c'.mu p = c.mu p ∧ c'.fix p = c.fix p ∧ c'.cov p p = c.cov p p := by
    intro p hp
    obtain ⟨i, hf⟩ := Option.isSome_iff_exists.mp hp
    obtain ⟨hor, b, e, -, -, -, -, -, -, g1, g2, g3⟩ := hi.inst p i hf
    obtain ⟨hor', b', e', -, -, -, -, -, -, g1', g2', g3'⟩ := hi'.inst p i (hsame p i hf)
    rw [e] at e'
    have hbel : [(c.tm p, b)] = [(c'.tm p, b')] := congrArg Inst.bel e'
    have hx : (c.tm p, b) = (c'.tm p, b') := by simpa using hbel
    obtain ⟨x1, x2⟩ := Prod.mk.inj hx
    rw [g1, g2, g3, g1', g2', g3', x1, x2]
    exact ⟨rfl, rfl, rfl, rfl⟩
  refine ⟨hi.rel, hi'.rel, fun p hp => ?_, fun p hp => (hrd p hp).1, fun p hp => (hrd p hp).2.1, fun p hp => (hrd p hp).2.2.1, fun p q hp hq => ?_⟩
  · obtain ⟨i, hf⟩ := Option.isSome_iff_exists.mp hp
    rw [hsame p i hf]; rfl
  · by_cases hpq : p = q
    · subst hpq; exact (hrd p hp).2.2.2
    · rw [hi.uncorrelated p q hpq, hi'.uncorrelated _ _ hpq]

/-- C132. Two handlers with freshly initialised instances, and one with the instances of both: whatever is done with the two, done in
any order between them, can be done with the one; it gives the same answers and ends with the same estimates of every instance, and it
reports every two instances of different groups as uncorrelated. -/
theorem c132_groups (hnear : NearOk near) (dim : ℕ → ℕ) (hu : United hA hB h) (iA : ∃ c, Hdl.Init dim hA c) (iB : ∃ c, Hdl.Init dim hB c) (i : ∃ c, Hdl.Init dim h c)
    (evsA evsB evs : List Ev) (as bs cs : List Bool) (hm : Merge evsA as evsB bs evs cs)
    (uA : Used fp near pred dim hA evsA as kA) (uB : Used fp near pred dim hB evsB bs kB) :
    ∃ k, Used fp near pred' dim h evs cs k ∧ Agree dim kA k ∧ Agree dim kB k ∧ Apart dim kA kB k := by
  obtain ⟨cA, iA⟩ := iA
  obtain ⟨cB, iB⟩ := iB
  obtain ⟨c, i⟩ := i
  have ht : Three dim hA hB h cA cB c := by
    refine ⟨both_init iA i hu.left, both_init iB i hu.right, hu.disjoint, fun p q hp hq x y => ?_⟩
    have ne : p ≠ q := fun e => hu.disjoint p hp (e ▸ hq)
    rw [i.uncorrelated p q ne, i.uncorrelated q p ne.symm, zero_e, zero_e]
    exact ⟨rfl, rfl⟩
  clear hu iA iB i
  induction hm generalizing hA hB h cA cB c with
  | nil =>
    cases uA
    cases uB
    exact ⟨h, Used.nil h, ht.read⟩
  | left hm ih =>
    cases uA with
    | step hw hf hs r =>
      obtain ⟨w, f, k, cA1, c1, s, ht1⟩ := ht.step (pred' := pred') hnear hw hf hs
      obtain ⟨k', u, e⟩ := ih r uB _ _ _ ht1
      exact ⟨k', Used.step w f s u, e⟩
  | right hm ih =>
    cases uB with
    | step hw hf hs r =>
      obtain ⟨w, f, k, cB1, c1, s, ht1⟩ := ht.swap.step (pred' := pred') hnear hw hf hs
      obtain ⟨k', u, e⟩ := ih uA r _ _ _ ht1.swap
      exact ⟨k', Used.step w f s u, e⟩

end handlers
/-! ## Example: instances 1 and 2 are observed together, 3 alone in between -/

namespace Example
open Hdl.Example (s s_shape s_tr near nearOk pred cfg gate)
open Rename.Example (dim)
open Linear.Example (bel hdl init calls)

noncomputable def inst (m v : ℝ) : Inst := Inst.doInit ⟨[], [], 10⟩ (bel m v) 0
noncomputable def h3 : Hdl := [(3, inst 4 6)]
noncomputable def hAll : Hdl := [(1, inst 3 2), (2, inst 5 7), (3, inst 4 6)]

noncomputable def mean (p : ℕ) : ℝ := if p = 1 then 3 else if p = 2 then 5 else 4
noncomputable def var (p : ℕ) : ℝ := if p = 1 then 2 else if p = 2 then 7 else 6

noncomputable def cen : Central where
  tm _ := 0
  mu p := s (mean p)
  cov p q := if p = q then s (var p) else Mat.zero 1 1
  fix _ := false

theorem init_of {h : Hdl} (hs : h.Sorted) (hi : ∀ p i, h.find p = some i → i = inst (mean p) (var p)) : Hdl.Init dim h cen where
  sorted := hs
  inst := by
    intro p i hpi
    refine ⟨10, bel (mean p) (var p), hi p i hpi, rfl, Nat.one_pos, rfl, rfl, rfl, s_tr _, ?_, ?_, ?_⟩
    · rfl
    · simp [cen]; rfl
    · rfl
  uncorrelated := by intro p q hpq; simp [cen, hpq]; rfl

theorem init3 : Hdl.Init dim h3 cen := by
  refine init_of (by simp [h3, SMap.Sorted]) fun p i hpi => ?_
  simp only [h3, SMap.find] at hpi
  split at hpi
  · rename_i e
    obtain rfl : 3 = p := e
    rw [← Option.some.inj hpi]
    simp [mean, var]
  · cases hpi

theorem initAll : Hdl.Init dim hAll cen := by
  refine init_of (by simp [hAll, SMap.Sorted]) fun p i hpi => ?_
  simp only [hAll, SMap.find] at hpi
  split at hpi
  · rename_i e
    obtain rfl : 1 = p := e
    rw [← Option.some.inj hpi]
    simp [mean, var]
  · split at hpi
    · rename_i e
      obtain rfl : 2 = p := e
      rw [← Option.some.inj hpi]
      simp [mean, var]
    · split at hpi
      · rename_i e
        obtain rfl : 3 = p := e
        rw [← Option.some.inj hpi]
        simp [mean, var]
      · cases hpi

theorem united : United (hdl 3 5) h3 hAll := by
  refine ⟨fun p i h => ?_, fun p i h => ?_, fun p h1 h2 => ?_⟩
  · simp only [hdl, SMap.find] at h
    split at h
    · rename_i e
      obtain rfl : 1 = p := e
      rw [← Option.some.inj h]; rfl
    · split at h
      · rename_i e
        obtain rfl : 2 = p := e
        rw [← Option.some.inj h]; rfl
      · cases h
  · simp only [h3, SMap.find] at h
    split at h
    · rename_i e
      obtain rfl : 3 = p := e
      rw [← Option.some.inj h]; rfl
    · cases h
  · have k1 := Linear.Example.known h1
    simp only [h3, SMap.find] at h2
    split at h2
    · rename_i e
      obtain rfl : 3 = p := e
      omega
    · simp at h2

theorem used3 : ∃ k a, Used FP.exact near pred dim h3 [.privKF 3 (s 2) (s 1) (s 9) 0 cfg] [a] k := by
  have hw : Wf dim h3 (.privKF 3 (s 2) (s 1) (s 9) 0 cfg) := ⟨_, (0, bel 4 6), by simp [h3, SMap.find]; rfl, rfl, rfl⟩
  have hf : Fits dim h3 (.privKF 3 (s 2) (s 1) (s 9) 0 cfg) := ⟨rfl, s_shape 1, s_shape 9, gate⟩
  obtain ⟨k, a, e, -⟩ := Hdl.progress_rel (fp := FP.exact) (pred := pred) nearOk init3.rel _ hw hf
  exact ⟨k, a, Used.step hw hf e (Used.nil k)⟩

/-- The observation of 3 comes between the joint observation of 1 and 2 and the private one of 2. -/
example : ∃ kA kB k as bs cs, Used FP.exact near pred dim (hdl 3 5) (calls 1 2) as kA ∧ Used FP.exact near pred dim h3 [.privKF 3 (s 2) (s 1) (s 9) 0 cfg] bs kB ∧
    Used FP.exact near pred dim hAll [.jointR Rename.Example.dA (s 1) (s 1) 0 cfg, .privKF 3 (s 2) (s 1) (s 9) 0 cfg, .privKF 2 (s 3) (s 1) (s 2) 0 cfg] cs k ∧
      Agree dim kA k ∧ Agree dim kB k ∧ Apart dim kA kB k := by
  obtain ⟨kA, as, uA⟩ := Linear.Example.used 3 5 1 2
  obtain ⟨kB, b, uB⟩ := used3
  obtain ⟨x, y, rfl⟩ : ∃ x y, as = [x, y] := by
    cases uA with
    | step _ _ _ r =>
      cases r with
      | step _ _ _ r =>
        cases r
        exact ⟨_, _, rfl⟩
  obtain ⟨k, u, e⟩ := c132_groups (pred' := pred) nearOk dim united ⟨_, init 3 5⟩ ⟨_, init3⟩ ⟨_, initAll⟩ _ _ _ _ _ _
    (Merge.left (Merge.right (Merge.left Merge.nil))) uA uB
  exact ⟨kA, kB, k, _, _, _, uA, uB, u, e⟩

end Example
end Groups
end Ikf
