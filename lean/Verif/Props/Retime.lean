import Verif.Spec.Retime
import Verif.Props.Groups

/-!
# Of the times only the order matters, and of the horizon nothing (C133)
-/

namespace Ikf
open Mat

namespace Retime
open Hdl (Rel Newest Wf Fits run NearOk)
open Rename (Used Same Sized Turned)
open Groups (idn Outcome)

section
variable {fp : FP} {near : Mat → Mat} {pred pred' : ℕ → Inst → Int → Inst × Bool} {dim : ℕ → ℕ} {φ : ℤ → ℤ} {h h' h1 : Hdl} {c c' c1 c1' : Central} {D : ℕ → Prop}

/-- The second filter with the times of the first. -/
def back (c c' : Central) : Central := { c' with tm := c.tm }

theorem spec_back {ev ev' : Ev} (hr : Retimed φ ev ev') (hs : SpecStep dim near c ev c1) (hs' : SpecStep dim near c' ev' c1') :
    SpecStep dim near (back c c') ev (back c1 c1') := by
  cases hr with
  | propKF id Phi Q ta tb => cases hs; cases hs'; exact SpecStep.propKF (c := back c c') id Phi Q ta tb
  | propEKF id mb Phi Q ta tb => cases hs; cases hs'; exact SpecStep.propEKF (c := back c c') id mb Phi Q ta tb
  | propBel id bb Phi ta tb => cases hs; cases hs'; exact SpecStep.propBel (c := back c c') id bb Phi ta tb
  | setCov a b S t => cases hs; cases hs'; exact SpecStep.setCov (c := back c c') a b S t
  | privKF id H R z t cfg =>
    cases hs
    cases hs' with
    | privKF _ _ _ _ _ _ res e1 e2 => exact SpecStep.privKF (c := back c c') id H R z t cfg res e1 e2
  | privEKF id H R r t cfg =>
    cases hs
    cases hs' with
    | privEKF _ _ _ _ _ _ res e1 e2 => exact SpecStep.privEKF (c := back c c') id H R r t cfg res e1 e2
  | jointR dH R r t cfg =>
    cases hs
    cases hs' with
    | jointR _ _ _ _ _ H S res hH hS e1 e2 => exact SpecStep.jointR (c := back c c') dH R r t cfg H S res hH hS e1 e2
  | jointZ dH z R t cfg =>
    cases hs
    cases hs' with
    | jointZ _ _ _ _ _ H S x res hH hS hx e1 e2 => exact SpecStep.jointZ (c := back c c') dH z R t cfg H S x res hH hS hx e1 e2

theorem tm_step {ev ev' : Ev} (hr : Retimed φ ev ev') (hs : SpecStep dim near c ev c1) (hs' : SpecStep dim near c' ev' c1') (p : ℕ) (h : c'.tm p = φ (c.tm p)) :
    c1'.tm p = φ (c1.tm p) := by
  cases hr <;> cases hs <;> cases hs' <;> first
    | exact h
    | (simp only [Central.transform]; split
       · rfl
       · exact h)

theorem outcome_back {ev ev' : Ev} (hr : Retimed φ ev ev') {r : CorrRes} (h : Outcome dim c' ev' r) : Outcome dim (back c c') ev r := by
  cases hr <;> cases h
  · exact .privKF (c := back c c') _ _ _ _ _ _ _ ‹_›
  · exact .privEKF (c := back c c') _ _ _ _ _ _ _ ‹_›
  · rename_i H S hH hS e
    exact .jointR (c := back c c') _ _ _ _ _ H S _ hH hS e
  · rename_i H S m hH hS hm e
    exact .jointZ (c := back c c') _ _ _ _ _ H S m _ hH hS hm e

theorem outcome_of_spec {ev : Ev} (hs : SpecStep dim near c ev c1) (hg : ∀ id Phi Q ta tb, ev ≠ .propKF id Phi Q ta tb) (hg2 : ∀ id mb Phi Q ta tb, ev ≠ .propEKF id mb Phi Q ta tb)
    (hg3 : ∀ id bb Phi ta tb, ev ≠ .propBel id bb Phi ta tb) (hg4 : ∀ a b S t, ev ≠ .setCov a b S t) : ∃ r, Outcome dim c ev r ∧ r.rejected = false := by
  cases hs with
  | propKF => exact (hg _ _ _ _ _ rfl).elim
  | propEKF => exact (hg2 _ _ _ _ _ _ rfl).elim
  | propBel => exact (hg3 _ _ _ _ _ rfl).elim
  | setCov => exact (hg4 _ _ _ _ rfl).elim
  | privKF _ _ _ _ _ _ res h1 h2 => exact ⟨res, .privKF _ _ _ _ _ _ _ h1, h2⟩
  | privEKF _ _ _ _ _ _ res h1 h2 => exact ⟨res, .privEKF _ _ _ _ _ _ _ h1, h2⟩
  | jointR _ _ _ _ _ H S res hH hS h1 h2 => exact ⟨res, .jointR _ _ _ _ _ _ _ _ hH hS h1, h2⟩
  | jointZ _ _ _ _ _ H S m res hH hS hm h1 h2 => exact ⟨res, .jointZ _ _ _ _ _ _ _ _ _ hH hS hm h1, h2⟩

/-- An accepted call has an outcome, if the rejected one has. -/
theorem outcome_ex {ev ev' : Ev} (hr : Retimed φ ev ev') (hs : SpecStep dim near c ev c1) {r : CorrRes} (o : Outcome dim c' ev' r) :
    ∃ r, Outcome dim c ev r ∧ r.rejected = false := by
  refine outcome_of_spec hs ?_ ?_ ?_ ?_ <;> · intros; rintro rfl; cases hr; cases o

theorem outcome_ex' {ev ev' : Ev} (hr : Retimed φ ev ev') (hs : SpecStep dim near c' ev' c1') {r : CorrRes} (o : Outcome dim c ev r) :
    ∃ r, Outcome dim c' ev' r ∧ r.rejected = false := by
  refine outcome_of_spec hs ?_ ?_ ?_ ?_ <;> · intros; rintro rfl; cases hr; cases o

/-- The invariant. -/
structure Pair (φ : ℤ → ℤ) (dim : ℕ → ℕ) (h h' : Hdl) (c c' : Central) : Prop where
  rel : Rel dim h c
  rel' : Rel dim h' c'
  known : ∀ p, (h.find p).isSome → (h'.find p).isSome
  tm : ∀ p, (h.find p).isSome → c'.tm p = φ (c.tm p)
  same : Same idn (fun p => (h.find p).isSome) c (back c c')

theorem Pair.newest (hb : Pair φ dim h h' c c') {p : ℕ} {t : Int} (hp : Newest h p t) : Newest h' p (φ t) := by
  obtain ⟨h1, h2⟩ := hp.rel hb.rel
  exact Newest.of_rel hb.rel' (hb.known p h1) (by rw [hb.tm p h1, h2])

theorem Pair.wf (hφ : StrictMono φ) (hb : Pair φ dim h h' c c') {ev ev' : Ev} (hr : Retimed φ ev ev') (hw : Wf dim h ev) (hf : Fits dim h ev) :
    Wf dim h' ev' ∧ Fits dim h' ev' := by
  have fx : ∀ p t, Newest h p t → Hdl.fixedAt h' (φ t) p = Hdl.fixedAt h t p := by
    intro p t hp
    have e := hb.same.fix p (hp.rel hb.rel).1
    rw [Rename.fixedAt_eq hb.rel hp, Rename.fixedAt_eq hb.rel' (hb.newest hp)]
    exact e
  cases hr with
  | propKF id Phi Q ta tb => exact ⟨⟨hb.newest hw.1, hφ hw.2.1, hw.2.2⟩, hf⟩
  | propEKF id mb Phi Q ta tb => exact ⟨⟨hb.newest hw.1, hφ hw.2.1, hw.2.2⟩, hf⟩
  | propBel id bb Phi ta tb => exact ⟨⟨hb.newest hw.1, hφ hw.2.1, hw.2.2⟩, hf⟩
  | privKF id H R z t cfg => exact ⟨hb.newest hw, hf⟩
  | privEKF id H R r t cfg => exact ⟨hb.newest hw, hf⟩
  | setCov a b S t => exact ⟨⟨hw.1, hb.newest hw.2.1, hb.newest hw.2.2.1, hw.2.2.2⟩, trivial⟩
  | jointR dH R r t cfg =>
    obtain ⟨g1, ⟨m, g2, g3⟩, g5⟩ := hf
    exact ⟨⟨hw.1, fun p hp => hb.newest (hw.2 p hp)⟩, g1, ⟨m, fun e he => ⟨(g2 e he).1, by
      rw [fx _ _ (hw.2 e.1 (List.mem_map.mpr ⟨e, he, rfl⟩))]; exact (g2 e he).2⟩, g3⟩, g5⟩
  | jointZ dH z R t cfg =>
    obtain ⟨g1, ⟨m, g2, g3⟩, g5⟩ := hf
    exact ⟨⟨hw.1, fun p hp => hb.newest (hw.2 p hp)⟩, g1, ⟨m, fun e he => ⟨(g2 e he).1, by
      rw [fx _ _ (hw.2 e.1 (List.mem_map.mpr ⟨e, he, rfl⟩))]; exact (g2 e he).2⟩, g3⟩, g5⟩

theorem Pair.step (hnear : NearOk near) (hφ : StrictMono φ) (hb : Pair φ dim h h' c c') {ev ev' : Ev} (hr : Retimed φ ev ev') (hw : Wf dim h ev) (hf : Fits dim h ev)
    {a : Bool} (hs : run fp near pred h ev = .ok (h1, a)) : ∃ h1' c1 c1', run fp near pred' h' ev' = .ok (h1', a) ∧ Pair φ dim h1 h1' c1 c1' := by
  obtain ⟨hw', hf'⟩ := hb.wf hφ hr hw hf
  have hz := Linear.sized hb.rel hw hf
  obtain ⟨h1', a', hs', -⟩ := Hdl.progress_rel (fp := fp) (pred := pred') hnear hb.rel' ev' hw' hf'
  have hdom := Hdl.step_dom hb.rel ev hw hs
  have hdom' := Hdl.step_dom hb.rel' ev' hw' hs'
  cases a with
  | true =>
    obtain ⟨c1, s1, r1⟩ := Hdl.accepted hnear hb.rel ev hw hs
    cases a' with
    | true =>
      obtain ⟨c1', s1', r1'⟩ := Hdl.accepted hnear hb.rel' ev' hw' hs'
      refine ⟨h1', c1, c1', hs', r1, r1', fun p hp => by rw [hdom']; exact hb.known p (by rw [← hdom]; exact hp), fun p hp => ?_, ?_⟩
      · exact tm_step hr s1 s1' p (hb.tm p (by rw [← hdom]; exact hp))
      · have := Groups.step_same hb.same hz s1 (spec_back hr s1 s1')
        simp only [hdom _]
        exact this
    | false =>
      obtain ⟨r, o, e⟩ := Groups.outcome_of_turned (Rename.turned hnear hb.rel' ev' hw' hf' hs')
      obtain ⟨r2, o2, e2⟩ := outcome_ex hr s1 o
      have := Groups.outcome_same hb.same hz o2 (outcome_back hr o)
      rw [this, e2] at e
      simp at e
  | false =>
    obtain ⟨r, o, e⟩ := Groups.outcome_of_turned (Rename.turned hnear hb.rel ev hw hf hs)
    cases a' with
    | true =>
      obtain ⟨c1', s1', r1'⟩ := Hdl.accepted hnear hb.rel' ev' hw' hs'
      obtain ⟨r2, o2, e2⟩ := outcome_ex' hr s1' o
      have := Groups.outcome_same hb.same hz o (outcome_back hr o2)
      rw [← this, e2] at e
      simp at e
    | false =>
      refine ⟨h1', c, c', hs', ?_⟩
      rw [Hdl.rejected hb.rel ev hw hs, Hdl.rejected hb.rel' ev' hw' hs']
      exact hb

theorem Pair.read (hb : Pair φ dim h h' c c') : SameButTimes φ dim h h' := by
  refine ⟨fun p t hp => ?_, fun p q t hp hq => ?_⟩
  · obtain ⟨h1, h2⟩ := hp.rel hb.rel
    obtain ⟨b, e1, e2, e3, e5, e4⟩ := hb.rel.bel p h1
    obtain ⟨b', e1', e2', e3', e5', e4'⟩ := hb.rel'.bel p (hb.known p h1)
    rw [hb.tm p h1, h2] at e1' e5'
    rw [h2] at e1 e5
    exact ⟨hb.newest hp, b, b', e1, e1', by rw [e2, e2']; exact hb.same.mu p h1, by rw [e3, e3']; exact hb.same.cov p p h1 h1,
      by rw [e4, e4']; exact hb.same.fix p h1, e5, e5'⟩
  · refine ⟨c.cov p q, hb.rel.isCov hp hq, ?_⟩
    have := hb.same.cov p q (hp.rel hb.rel).1 (hq.rel hb.rel).1
    rw [← this]
    exact hb.rel'.isCov (hb.newest hp) (hb.newest hq)

/-- C133. Two handlers with freshly initialised instances that differ in the times of their beliefs only, and maybe in their
horizons: given the same calls at times that are in the same order, they give the same answers and hold the same estimates, also of
the correlations. -/
theorem c133_times (hnear : NearOk near) (φ : ℤ → ℤ) (hφ : StrictMono φ) (dim : ℕ → ℕ) (i : ∃ c, Hdl.Init dim h c) (i' : ∃ c, Hdl.Init dim h' c)
    (known : ∀ p, (h.find p).isSome → (h'.find p).isSome) (hs : SameButTimes φ dim h h') (evs evs' : List Ev) (hr : List.Forall₂ (Retimed φ) evs evs')
    (as : List Bool) (hu : Used fp near pred dim h evs as h1) : ∃ h1', Used fp near pred' dim h' evs' as h1' ∧ SameButTimes φ dim h1 h1' := by
  obtain ⟨c, i⟩ := i
  obtain ⟨c', i'⟩ := i'
  have hb : Pair φ dim h h' c c' := by
    have key : ∀ p, (h.find p).isSome → c'.tm p = φ (c.tm p) ∧ c'.mu p = c.mu p ∧ c'.fix p = c.fix p ∧ c'.cov p p = c.cov p p := by
      intro p hp
      have hN := Newest.of_rel i.rel hp rfl
      obtain ⟨n2, b, b', e1, e2, m, v, x, -, -⟩ := hs.belief p _ hN
      obtain ⟨o2, t2⟩ := n2.rel i'.rel
      obtain ⟨d1, y1, y1m, y1v, -, y1x⟩ := i.rel.bel p hp
      obtain ⟨d2, y2, y2m, y2v, -, y2x⟩ := i'.rel.bel p o2
      rw [t2] at y2
      cases Option.some.inj (e1.symm.trans y1)
      cases Option.some.inj (e2.symm.trans y2)
      rw [← y1m, ← y1v, ← y1x, ← y2m, ← y2v, ← y2x]
      exact ⟨t2, m, x, v⟩
    refine ⟨i.rel, i'.rel, known, fun p hp => (key p hp).1, fun p hp => rfl, fun p hp => (key p hp).2.1, fun p hp => (key p hp).2.2.1, fun p q hp hq => ?_⟩
    by_cases hpq : p = q
    · subst hpq; exact (key p hp).2.2.2
    · show c'.cov p q = c.cov p q
      rw [i.uncorrelated p q hpq, i'.uncorrelated p q hpq]
  clear i i' hs known
  induction hu generalizing h' c c' evs' with
  | nil h =>
    cases hr
    exact ⟨h', Used.nil h', hb.read⟩
  | @step h h1 h2 ev a evs as hw hf hs r ih =>
    cases hr with
    | @cons _ ev' _ evs' he hrest =>
      obtain ⟨hw', hf'⟩ := hb.wf hφ he hw hf
      obtain ⟨h1', c1, c1', hs', hb1⟩ := hb.step (pred' := pred') hnear hφ he hw hf hs
      obtain ⟨h2', hu', hse⟩ := ih evs' hrest c1 c1' hb1
      exact ⟨h2', Used.step hw' hf' hs' hu', hse⟩

/-! ## Example: an observation and a propagation over 5, or over 10 from 100 on with another horizon -/

end

namespace Example
open Hdl.Example (s s_shape s_tr near nearOk pred cfg gate)
open Rename.Example (dim)

noncomputable def bel (t : ℤ) : Belief := { mean := s 3, Sigma := s 2, stamp := t }
noncomputable def hd (t : ℤ) (hor : ℤ) : Hdl := [(1, Inst.doInit ⟨[], [], hor⟩ (bel t) t)]

noncomputable def cen (t : ℤ) : Central where
  tm _ := t
  mu _ := s 3
  cov p q := if p = q then s 2 else Mat.zero 1 1
  fix _ := false

theorem init (t hor : ℤ) : Hdl.Init dim (hd t hor) (cen t) where
  sorted := by simp [hd, SMap.Sorted]
  inst := by
    intro p i hpi
    simp only [hd, SMap.find] at hpi
    split at hpi
    · refine ⟨hor, bel t, (Option.some.inj hpi).symm, rfl, Nat.one_pos, rfl, rfl, rfl, s_tr _, rfl, ?_, rfl⟩
      simp [cen]; rfl
    · cases hpi
  uncorrelated := by intro p q hpq; simp [cen, hpq]; rfl

noncomputable def calls (t u : ℤ) : List Ev := [.privKF 1 (s 3) (s 1) (s 4) t cfg, .propKF 1 (s 2) (s 1) t u]

theorem used : ∃ k as, Used FP.exact near pred dim (hd 0 10) (calls 0 5) as k := by
  have hw : Wf dim (hd 0 10) (.privKF 1 (s 3) (s 1) (s 4) 0 cfg) := ⟨_, (0, bel 0), by simp [hd, SMap.find]; rfl, rfl, rfl⟩
  have hf : Fits dim (hd 0 10) (.privKF 1 (s 3) (s 1) (s 4) 0 cfg) := ⟨rfl, s_shape 1, s_shape 4, gate⟩
  obtain ⟨h1, a, e1, ha⟩ := Hdl.progress_rel (fp := FP.exact) (pred := pred) nearOk (init 0 10).rel _ hw hf
  obtain rfl := ha rfl
  obtain ⟨c1, s1, r1⟩ := Hdl.accepted nearOk (init 0 10).rel _ hw e1
  have hdo := Hdl.step_dom (init 0 10).rel _ hw e1
  have htm : c1.tm 1 = 0 := by cases s1; rfl
  have hw2 : Wf dim h1 (.propKF 1 (s 2) (s 1) 0 5) := ⟨Newest.of_rel r1 (by rw [hdo]; simp [hd, SMap.find]) htm, by norm_num, s_tr 1⟩
  have hf2 : Fits dim h1 (.propKF 1 (s 2) (s 1) 0 5) := ⟨s_shape 2, s_shape 1⟩
  obtain ⟨h2, a2, e2, -⟩ := Hdl.progress_rel (fp := FP.exact) (pred := pred) nearOk r1 _ hw2 hf2
  exact ⟨h2, _, Used.step hw hf e1 (Used.step hw2 hf2 e2 (Used.nil h2))⟩

example : ∃ k k' as, Used FP.exact near pred dim (hd 0 10) (calls 0 5) as k ∧ Used FP.exact near pred dim (hd 100 1) (calls 100 110) as k' ∧
    SameButTimes (fun t => 2 * t + 100) dim k k' := by
  obtain ⟨k, as, u⟩ := used
  have hk : ∀ {t hor p}, ((hd t hor).find p).isSome → p = 1 := by
    intro t hor p h
    simp only [hd, SMap.find] at h
    split at h
    · omega
    · simp at h
  have hN : ∀ t hor, Newest (hd t hor) 1 t := fun t hor => ⟨_, (t, bel t), by simp [hd, SMap.find]; rfl, rfl, rfl⟩
  obtain ⟨k', u', e⟩ := c133_times (pred' := pred) (h' := hd 100 1) nearOk (fun t => 2 * t + 100) (by intro a b h; simp only; omega) dim ⟨_, init 0 10⟩ ⟨_, init 100 1⟩
    (fun p hp => by cases hk hp; simp [hd, SMap.find]) (by
      refine ⟨fun p t hp => ?_, fun p q t hp hq => ?_⟩
      · obtain ⟨g1, g2⟩ := hp.rel (init 0 10).rel
        cases hk g1
        obtain rfl : (0 : ℤ) = t := g2
        exact ⟨hN 100 1, bel 0, bel 100, by simp [Hdl.belief, hd, SMap.find]; rfl, by simp [Hdl.belief, hd, SMap.find]; rfl, rfl, rfl, rfl, rfl, rfl⟩
      · obtain ⟨g1, g2⟩ := hp.rel (init 0 10).rel
        obtain ⟨g1', -⟩ := hq.rel (init 0 10).rel
        cases hk g1
        cases hk g1'
        obtain rfl : (0 : ℤ) = t := g2
        exact ⟨_, (init 0 10).rel.isCov hp hq, (init 100 1).rel.isCov (hN 100 1) (hN 100 1)⟩) _ (calls 100 110)
      (List.Forall₂.cons (Retimed.privKF 1 (s 3) (s 1) (s 4) 0 cfg) (List.Forall₂.cons (Retimed.propKF 1 (s 2) (s 1) 0 5) List.Forall₂.nil)) _ u
  exact ⟨k, k', as, u, u', e⟩

end Example
end Retime
end Ikf
