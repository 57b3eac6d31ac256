import Verif.Spec.Saved
import Verif.Props.Commute

/-!
# A handler can be saved and restored through the API (C137)
-/

namespace Ikf
open Mat

namespace Saved
open Hdl (Rel Newest Wf Fits run NearOk)
open Rename (Used Same)
open Groups (idn)
open Commute (Alike)

section
variable {fp : FP} {near : Mat → Mat} {pred : ℕ → Inst → Int → Inst × Bool} {dim : ℕ → ℕ} {h0 h h' k : Hdl} {c c' : Central}

/-- Writing the rest of the saved covariances. -/
theorem write (hnear : NearOk near) {t : ℤ} (hr : Rel dim h c) (hN : ∀ p, (h.find p).isSome → Newest h p t) (l : List (ℕ × ℕ × Mat))
    (hl : ∀ e ∈ l, e.1 ≠ e.2.1 ∧ (h.find e.1).isSome ∧ (h.find e.2.1).isSome ∧ Hdl.IsCov dim h e.1 e.2.1 t e.2.2)
    {g : Hdl} {d : Central} (rd : Rel dim g d) (dom : ∀ p, (g.find p).isSome = (h.find p).isSome) (tm : ∀ p, (h.find p).isSome → d.tm p = c.tm p)
    (mu : ∀ p, (h.find p).isSome → d.mu p = c.mu p) (fx : ∀ p, (h.find p).isSome → d.fix p = c.fix p) (dg : ∀ p, (h.find p).isSome → d.cov p p = c.cov p p)
    (cv : ∀ p q, p ≠ q → (h.find p).isSome → (h.find q).isSome → (∃ S, (p, q, S) ∈ l ∨ (q, p, S) ∈ l) ∨ d.cov p q = c.cov p q) :
    ∃ g' d', Used fp near pred dim g (writes t l) (l.map fun _ => true) g' ∧ Alike dim h g' c d' := by
  induction l generalizing g d with
  | nil =>
    refine ⟨g, d, Used.nil g, hr, rd, fun p hp => by rw [dom]; exact hp, tm, fun p _ => rfl, mu, fx, fun p q hp hq => ?_⟩
    by_cases hpq : p = q
    · subst hpq; exact dg p hp
    · rcases cv p q hpq hp hq with ⟨S, h | h⟩ | h
      · cases h
      · cases h
      · exact h
  | cons e l ih =>
    obtain ⟨a, b, S⟩ := e
    obtain ⟨hab, ha, hb, hS⟩ := hl _ List.mem_cons_self
    have hS' : S = c.cov a b := hS.unique (hr.isCov (hN a ha) (hN b hb))
    have nw : ∀ p, (h.find p).isSome → Newest g p t := fun p hp => Newest.of_rel rd (by rw [dom]; exact hp) (by rw [tm p hp]; exact ((hN p hp).rel hr).2)
    have sh := hr.covS a b ha hb
    have hw : Wf dim g (.setCov a b S t) := ⟨hab, nw a ha, nw b hb, by rw [hS']; exact sh.1, by rw [hS']; exact sh.2⟩
    obtain ⟨g1, x, e1, hx⟩ := Hdl.progress_rel (fp := fp) (pred := pred) hnear rd _ hw trivial
    obtain rfl := hx trivial
    obtain ⟨d1, s1, r1⟩ := Hdl.accepted hnear rd _ hw e1
    have hd := Hdl.step_dom rd _ hw e1
    cases s1
    obtain ⟨g', d', u, al⟩ := ih (fun e he => hl e (List.mem_cons_of_mem _ he)) r1 (fun p => by rw [hd, dom]) tm mu fx
      (fun p hp => by
        have : ¬ (p = a ∧ p = b) := fun ⟨h1, h2⟩ => hab (h1 ▸ h2)
        have h2 : ¬ (p = b ∧ p = a) := fun ⟨h1, h2⟩ => hab (h2 ▸ h1)
        simp only [Central.setCov, this, h2, if_false]
        exact dg p hp)
      (fun p q hpq hp hq => by
        by_cases h1 : p = a ∧ q = b
        · obtain ⟨rfl, rfl⟩ := h1
          right
          simp [Central.setCov, hS']
        · by_cases h2 : p = b ∧ q = a
          · obtain ⟨rfl, rfl⟩ := h2
            right
            simp only [Central.setCov, h1, if_false, and_self, if_true]
            rw [hS']
            exact (hr.symm q p hq hp).symm
          · rcases cv p q hpq hp hq with ⟨X, h | h⟩ | h
            · rcases List.mem_cons.mp h with h | h
              · cases h; exact absurd ⟨rfl, rfl⟩ h1
              · exact Or.inl ⟨X, Or.inl h⟩
            · rcases List.mem_cons.mp h with h | h
              · cases h; exact absurd ⟨rfl, rfl⟩ h2
              · exact Or.inl ⟨X, Or.inr h⟩
            · right
              simp only [Central.setCov, h1, h2, if_false]
              exact h)
    exact ⟨g', d', Used.step hw trivial e1 u, al⟩

/-- C137. A handler with any history, whose newest beliefs are all of `t`, and a fresh one whose instances were initialised with these
beliefs: writing the saved cross-covariances succeeds, after that all estimates are those of the first handler, and all calls made
afterwards are answered as by the first handler and lead to the same estimates. -/
theorem c137_restored (hnear : NearOk near) (dim : ℕ → ℕ) (i : ∃ c, Hdl.Init dim h0 c) (i' : ∃ c, Hdl.Init dim h' c) {before : List Ev} {as : List Bool}
    (u : Used fp near pred dim h0 before as h) (t : ℤ) (hN : ∀ p, (h.find p).isSome → Newest h p t) (hb : Beliefs h h' t) (l : List (ℕ × ℕ × Mat)) (hl : Covs dim h t l) :
    ∃ g, Used fp near pred dim h' (writes t l) (l.map fun _ => true) g ∧ Groups.Agree dim h g ∧
      ∀ (after : List Ev) (bs : List Bool) (k : Hdl), Used fp near pred dim h after bs k → ∃ k', Used fp near pred dim g after bs k' ∧ Groups.Agree dim k k' := by
  obtain ⟨c0, i⟩ := i
  obtain ⟨c', i'⟩ := i'
  obtain ⟨c, r⟩ := Commute.used_rel hnear i.rel u
  have r' := i'.rel
  have key : ∀ p, (h.find p).isSome → c'.tm p = c.tm p ∧ c'.mu p = c.mu p ∧ c'.fix p = c.fix p ∧ c'.cov p p = c.cov p p := by
    intro p hp
    obtain ⟨n', b, b', e, e', m, v, f⟩ := hb.same p hp
    obtain ⟨b2, x1, x2, x3, -, x4⟩ := r.bel p hp
    obtain ⟨b3, y1, y2, y3, -, y4⟩ := r'.bel p (by rw [hb.dom]; exact hp)
    have t1 := ((hN p hp).rel r).2
    have t2 := (n'.rel r').2
    rw [t1] at x1
    rw [t2] at y1
    cases Option.some.inj (e.symm.trans x1)
    cases Option.some.inj (e'.symm.trans y1)
    exact ⟨by rw [t1, t2], by rw [← x2, ← y2, m], by rw [← x4, ← y4, f], by rw [← x3, ← y3, v]⟩
  obtain ⟨g, d, ug, al⟩ := write (fp := fp) (pred := pred) hnear r hN l hl.read r' hb.dom (fun p hp => (key p hp).1) (fun p hp => (key p hp).2.1) (fun p hp => (key p hp).2.2.1)
    (fun p hp => (key p hp).2.2.2) (fun p q hpq hp hq => by
      rcases hl.all p q hpq hp hq with h | h
      · exact Or.inl h
      · right
        rw [i'.uncorrelated p q hpq]
        exact h.unique (r.isCov (hN p hp) (hN q hq)))
  refine ⟨g, ug, al.agree, fun after bs k hu => ?_⟩
  obtain ⟨k', d1, d1', u', al'⟩ := al.used hnear hu
  exact ⟨k', u', al'.agree⟩

end

/-! ## Example: two instances after a joint observation -/

namespace Example
open Hdl.Example (s s_shape s_tr near nearOk pred cfg gate)
open Rename.Example (dim dA)
open Linear.Example (hdl init newest known)
open Commute.Example (joint)

/-- There is always a fresh handler with the newest beliefs. -/
theorem fresh {h : Hdl} {c : Central} (r : Rel dim h c) {t : ℤ} (hN : ∀ p, (h.find p).isSome → Newest h p t) (hk : ∀ p, (h.find p).isSome ↔ p = 1 ∨ p = 2) :
    ∃ h', (∃ c, Hdl.Init dim h' c) ∧ Beliefs h h' t := by
  have k1 : (h.find 1).isSome := (hk 1).mpr (Or.inl rfl)
  have k2 : (h.find 2).isSome := (hk 2).mpr (Or.inr rfl)
  have t1 := ((hN 1 k1).rel r).2
  have t2 := ((hN 2 k2).rel r).2
  obtain ⟨b1, x1, x2, x3, x4, x5⟩ := r.bel 1 k1
  obtain ⟨b2, y1, y2, y3, y4, y5⟩ := r.bel 2 k2
  have f1 : SMap.find [(1, Inst.doInit ⟨[], [], 10⟩ b1 t), (2, Inst.doInit ⟨[], [], 10⟩ b2 t)] 1 = some (Inst.doInit ⟨[], [], 10⟩ b1 t) := by simp [SMap.find]
  have f2 : SMap.find [(1, Inst.doInit ⟨[], [], 10⟩ b1 t), (2, Inst.doInit ⟨[], [], 10⟩ b2 t)] 2 = some (Inst.doInit ⟨[], [], 10⟩ b2 t) := by simp [SMap.find]
  have f3 : ∀ p, p ≠ 1 → p ≠ 2 → SMap.find [(1, Inst.doInit ⟨[], [], 10⟩ b1 t), (2, Inst.doInit ⟨[], [], 10⟩ b2 t)] p = none := by
    intro p h1 h2; simp [SMap.find, Ne.symm h1, Ne.symm h2]
  refine ⟨[(1, Inst.doInit ⟨[], [], 10⟩ b1 t), (2, Inst.doInit ⟨[], [], 10⟩ b2 t)],
    ⟨{ tm := fun _ => t, mu := c.mu, fix := c.fix, cov := fun p q => if p = q then c.cov p p else Mat.zero 1 1 }, ?_, ?_, ?_⟩, ?_, ?_⟩
  · simp [SMap.Sorted]
  · intro p i hpi
    by_cases h1 : p = 1
    · subst h1
      rw [f1] at hpi
      have hm := r.muS 1 k1
      have hv := r.covS 1 1 k1 k1
      have hs := r.symm 1 1 k1 k1
      refine ⟨10, b1, (Option.some.inj hpi).symm, x4.trans t1, Nat.one_pos, by rw [x2]; exact hm.1, by rw [x2]; exact hm.2, by rw [x3]; exact hv.1, by rw [x3]; exact hs.symm,
        x2.symm, by simp [x3], x5.symm⟩
    · by_cases h2 : p = 2
      · subst h2
        rw [f2] at hpi
        have hm := r.muS 2 k2
        have hv := r.covS 2 2 k2 k2
        have hs := r.symm 2 2 k2 k2
        refine ⟨10, b2, (Option.some.inj hpi).symm, y4.trans t2, Nat.one_pos, by rw [y2]; exact hm.1, by rw [y2]; exact hm.2, by rw [y3]; exact hv.1, by rw [y3]; exact hs.symm,
          y2.symm, by simp [y3], y5.symm⟩
      · rw [f3 p h1 h2] at hpi; cases hpi
  · intro p q hpq; simp [hpq]; rfl
  · intro p
    rw [Bool.eq_iff_iff, hk]
    by_cases h1 : p = 1
    · subst h1; rw [f1]; simp
    · by_cases h2 : p = 2
      · subst h2; rw [f2]; simp
      · rw [f3 p h1 h2]; simp [h1, h2]
  · intro p hp
    rcases (hk p).mp hp with rfl | rfl
    · refine ⟨⟨_, (t, b1), f1, rfl, rfl⟩, b1, b1, by rw [← t1]; exact x1, ?_, rfl, rfl, rfl⟩
      show (SMap.find _ 1).bind _ = _
      rw [f1]; simp [Inst.doInit, Inst.beliefAt, Inst.reset, Buf.insertMap, Buf.getAt]
    · refine ⟨⟨_, (t, b2), f2, rfl, rfl⟩, b2, b2, by rw [← t2]; exact y1, ?_, rfl, rfl, rfl⟩
      show (SMap.find _ 2).bind _ = _
      rw [f2]; simp [Inst.doInit, Inst.beliefAt, Inst.reset, Buf.insertMap, Buf.getAt]

example : ∃ h h' g, Used FP.exact near pred dim (hdl 3 5) [joint] [true] h ∧ ∃ S, Used FP.exact near pred dim h' [.setCov 1 2 S 0] [true] g ∧ Groups.Agree dim h g ∧
    ∀ (after : List Ev) (bs : List Bool) (k : Hdl), Used FP.exact near pred dim h after bs k → ∃ k', Used FP.exact near pred dim g after bs k' ∧ Groups.Agree dim k k' := by
  obtain ⟨h, h2, k, u, -, -⟩ := Commute.Example.used
  have hi := (init 3 5).rel
  have k1 := (newest (m1 := 3) (m2 := 5) (Or.inl rfl)).rel hi
  have k2 := (newest (m1 := 3) (m2 := 5) (Or.inr rfl)).rel hi
  cases u with
  | @step _ h1 _ _ _ _ _ hw hf hs r =>
    cases r
    obtain ⟨c1, s1, r1⟩ := Hdl.accepted nearOk hi _ hw hs
    have d1 := Hdl.step_dom hi _ hw hs
    have hk : ∀ p, (h.find p).isSome ↔ p = 1 ∨ p = 2 := by
      intro p
      rw [d1]
      refine ⟨known, ?_⟩
      rintro (rfl | rfl)
      · exact k1.1
      · exact k2.1
    have t1 : c1.tm 1 = 0 ∧ c1.tm 2 = 0 := by cases s1; exact ⟨k1.2, k2.2⟩
    have hN : ∀ p, (h.find p).isSome → Newest h p 0 := by
      intro p hp
      refine Newest.of_rel r1 hp ?_
      rcases (hk p).mp hp with rfl | rfl
      · exact t1.1
      · exact t1.2
    obtain ⟨h', i', hb⟩ := fresh r1 hN hk
    have p1 := (hk 1).mpr (Or.inl rfl)
    have p2 := (hk 2).mpr (Or.inr rfl)
    obtain ⟨g, ug, e, f⟩ := c137_restored (fp := FP.exact) (pred := pred) nearOk dim ⟨_, init 3 5⟩ i' (Used.step hw hf hs (Used.nil _)) 0 hN hb [(1, 2, c1.cov 1 2)]
      ⟨by
        intro e he
        obtain rfl : e = (1, 2, c1.cov 1 2) := by simpa using he
        exact ⟨show (1 : ℕ) ≠ 2 by decide, p1, p2, r1.isCov (hN 1 p1) (hN 2 p2)⟩, by
        intro p q hpq hp hq
        left
        refine ⟨c1.cov 1 2, ?_⟩
        rcases (hk p).mp hp with rfl | rfl <;> rcases (hk q).mp hq with rfl | rfl
        · exact absurd rfl hpq
        · left; exact List.mem_singleton.mpr rfl
        · right; exact List.mem_singleton.mpr rfl
        · exact absurd rfl hpq⟩
    exact ⟨h, h', g, Used.step hw hf hs (Used.nil _), _, ug, e, f⟩

end Example
end Saved
end Ikf
