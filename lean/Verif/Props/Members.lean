import Verif.Spec.Members
import Verif.Props.Commute

/-!
# Instances can join and leave at any time (C138)
-/

namespace Ikf
open Mat

namespace Members
open Hdl (Rel Newest Wf Fits run NearOk fc bl)
open Rename (Used Same Both)
open Groups (idn Three Agree Apart)
open Commute (Concerns Acts)

section
variable {fp : FP} {near : Mat → Mat} {pred : ℕ → Inst → Int → Inst × Bool} {dim : ℕ → ℕ} {hor : ℚ} {h0 h h1 h2 k : Hdl} {c c' c0 : Central} {p : ℕ} {b : Belief} {t : ℤ}

theorem leave_rel (hr : Rel dim h c) (p : ℕ) : Rel dim (SMap.erase h p) c := by
  have fd : ∀ q i, SMap.find (SMap.erase h p) q = some i → h.find q = some i := by
    intro q i hq
    rw [SMap.find_erase] at hq
    split at hq
    · cases hq
    · exact hq
  have sm : ∀ q, (SMap.find (SMap.erase h p) q).isSome → (h.find q).isSome ∧ p ≠ q ∧ SMap.find (SMap.erase h p) q = h.find q := by
    intro q hq
    rw [SMap.find_erase] at hq ⊢
    split at hq
    · cases hq
    · rename_i hne; exact ⟨hq, hne, by rw [if_neg hne]⟩
  have ef : ∀ q, (SMap.find (SMap.erase h p) q).isSome → ∀ r t, fc (SMap.erase h p) q r t = fc h q r t := by
    intro q hq r t; unfold fc; rw [(sm q hq).2.2]
  constructor
  · exact ⟨SMap.Sorted.erase hr.ok.sorted p, fun q i hq => hr.ok.ord q i (fd q i hq), fun q i hq => hr.ok.upTo q i (fd q i hq)⟩
  · intro q hq
    obtain ⟨x, h1, h2⟩ := hr.bel q (sm q hq).1
    exact ⟨x, by unfold bl; rw [(sm q hq).2.2]; exact h1, h2⟩
  · exact fun q hq => hr.pos q (sm q hq).1
  · exact fun q hq => hr.muS q (sm q hq).1
  · exact fun q r hq hr' => hr.covS q r (sm q hq).1 (sm r hr').1
  · exact fun q r hq hr' => hr.symm q r (sm q hq).1 (sm r hr').1
  · intro q hq r M hM
    rw [ef q hq] at hM
    exact hr.rows q (sm q hq).1 r M hM
  · intro q r hq hr' hne
    rw [ef q hq, ef r hr']
    exact hr.pair q r (sm q hq).1 (sm r hr').1 hne

theorem find_add (ha : (h.find p).isSome = false) (i : Inst) (q : ℕ) : (Hdl.addInst hor h p i).1.find q = if p = q then some (Hdl.withHorizon i hor) else h.find q := by
  unfold Hdl.addInst
  have hn : h.find p = none := by simpa using ha
  rw [ha]
  simp only [Bool.not_false, if_true]
  rw [SMap.find_emplace]
  simp [hn]

theorem Fresh.init (hb : Fresh (dim p) b t) : Hdl.Init dim [(p, Hdl.withHorizon (Inst.doInit ⟨[], [], 0⟩ b t) hor)] (joined dim ⟨fun _ => t, fun _ => b.mean, fun a d => Mat.zero (dim a) (dim d), fun _ => b.fixed⟩ p b t) := by
  refine ⟨by simp [SMap.Sorted], ?_, ?_⟩
  · intro q i hq
    simp only [SMap.find] at hq
    split at hq
    · rename_i e
      obtain rfl : p = q := e
      refine ⟨hor, b, ?_, ?_, hb.pos, hb.mean.1, hb.mean.2, hb.cov.1, hb.symm, ?_, ?_, ?_⟩
      · rw [← Option.some.inj hq]; simp [joined]; rfl
      · simp [joined, hb.stamp]
      all_goals simp [joined]
    · cases hq
  · intro a d hne
    simp only [joined]
    split
    · rename_i h; exact absurd (h.1.trans h.2.symm) hne
    · split <;> rfl

theorem New.fac (hn : New h p) {q : ℕ} (hq : (h.find q).isSome) (t : ℤ) : fc h q p t = none := by
  obtain ⟨i, hi⟩ := Option.isSome_iff_exists.mp hq
  have : i.ccf.find p = none := by
    cases hf : i.ccf.find p with
    | none => rfl
    | some B => exact absurd (List.mem_map.mpr ⟨_, SMap.mem_of_find hf, rfl⟩) (hn q i hi)
  unfold fc
  rw [hi]
  show i.fac p t = none
  unfold Inst.fac
  rw [this]; rfl

theorem join_rel (hr : Rel dim h c) (hb : Fresh (dim p) b t) (hn : New h p) (ha : (h.find p).isSome = false) :
    Rel dim (Hdl.addInst hor h p (Inst.doInit ⟨[], [], 0⟩ b t)).1 (joined dim c p b t) := by
  have hI := (Fresh.init (hor := hor) hb).rel
  have fd := find_add (hor := hor) ha (Inst.doInit ⟨[], [], 0⟩ b t)
  generalize hg : (Hdl.addInst hor h p (Inst.doInit ⟨[], [], 0⟩ b t)).1 = g at fd ⊢
  have f1 : SMap.find [(p, Hdl.withHorizon (Inst.doInit ⟨[], [], 0⟩ b t) hor)] p = some (Hdl.withHorizon (Inst.doInit ⟨[], [], 0⟩ b t) hor) := by simp [SMap.find]
  have gp : g.find p = some (Hdl.withHorizon (Inst.doInit ⟨[], [], 0⟩ b t) hor) := by rw [fd, if_pos rfl]
  have gq : ∀ {q}, q ≠ p → g.find q = h.find q := fun hne => by rw [fd, if_neg (Ne.symm hne)]
  have sq : ∀ {q}, q ≠ p → (g.find q).isSome → (h.find q).isSome := fun hne hq => by rw [gq hne] at hq; exact hq
  have fq : ∀ {q}, q ≠ p → ∀ r t, fc g q r t = fc h q r t := by intro q hne r t; unfold fc; rw [gq hne]
  have fp' : ∀ r s, fc g p r s = none := by intro r s; unfold fc; rw [gp]; rfl
  have ip : (SMap.find [(p, Hdl.withHorizon (Inst.doInit ⟨[], [], 0⟩ b t) hor)] p).isSome := by rw [f1]; rfl
  constructor
  · refine ⟨?_, ?_, ?_⟩
    · rw [← hg]
      unfold Hdl.addInst
      rw [ha]
      exact SMap.Sorted.emplace hr.ok.sorted _ _
    · intro q i hq
      by_cases hne : q = p
      · subst hne
        rw [gp] at hq
        exact hI.ok.ord q i (f1.trans hq)
      · rw [gq hne] at hq; exact hr.ok.ord q i hq
    · intro q i hq
      by_cases hne : q = p
      · subst hne
        rw [gp] at hq
        have := hI.ok.upTo q i (f1.trans hq)
        simp only [joined] at this ⊢
        exact this
      · rw [gq hne] at hq
        have := hr.ok.upTo q i hq
        simp only [joined, hne, if_false]
        exact this
  · intro q hq
    by_cases hne : q = p
    · subst hne
      obtain ⟨x, h1, h2, h3, h4, h5⟩ := hI.bel q ip
      have : bl g q t = some x := by
        have e : bl [(q, Hdl.withHorizon (Inst.doInit ⟨[], [], 0⟩ b t) hor)] q t = bl g q t := by unfold bl; rw [f1, gp]
        rw [← e]; simpa [joined] using h1
      exact ⟨x, by simpa [joined] using this, by simpa [joined] using h2, by simpa [joined] using h3, by simpa [joined] using h4, by simpa [joined] using h5⟩
    · obtain ⟨x, h1, h2, h3, h4, h5⟩ := hr.bel q (sq hne hq)
      have e : ∀ s, bl g q s = bl h q s := by intro s; unfold bl; rw [gq hne]
      simp only [joined, hne, if_false, false_and, false_or, e]
      exact ⟨x, h1, h2, h3, h4, h5⟩
  · intro q hq
    by_cases hne : q = p
    · subst hne; exact hb.pos
    · exact hr.pos q (sq hne hq)
  · intro q hq
    by_cases hne : q = p
    · subst hne; simp only [joined, if_true]; exact hb.mean
    · simp only [joined, hne, if_false]; exact hr.muS q (sq hne hq)
  · intro q r hq hr'
    by_cases h1 : q = p <;> by_cases h2 : r = p
    · subst h1; subst h2; simp only [joined, and_self, if_true]; exact hb.cov
    · simp only [joined, h1, h2, and_false, true_or, if_true, if_false]; exact ⟨rfl, rfl⟩
    · simp only [joined, h1, h2, and_true, or_true, if_true, if_false]; exact ⟨rfl, rfl⟩
    · simp only [joined, h1, h2, and_self, or_self, if_false]; exact hr.covS q r (sq h1 hq) (sq h2 hr')
  · intro q r hq hr'
    by_cases h1 : q = p <;> by_cases h2 : r = p
    · subst h1; subst h2; simp only [joined, and_self, if_true]; exact hb.symm.symm
    · simp only [joined, h1, h2, and_false, false_and, true_or, or_true, if_true, if_false]; rw [Hdl.tr_zero]
    · simp only [joined, h1, h2, and_true, true_and, true_or, or_true, if_true, if_false]; rw [Hdl.tr_zero]
    · simp only [joined, h1, h2, and_self, or_self, if_false]; exact hr.symm q r (sq h1 hq) (sq h2 hr')
  · intro q hq r M hM
    by_cases hne : q = p
    · subst hne; rw [fp'] at hM; cases hM
    · simp only [joined, hne, if_false] at hM
      rw [fq hne] at hM
      exact hr.rows q (sq hne hq) r M hM
  · intro q r hq hr' hqr
    by_cases h1 : q = p
    · have h2 : r ≠ p := fun e => hqr (h1.trans e.symm)
      subst h1
      right
      refine ⟨fp' _ _, ?_, by simp [joined, h2]⟩
      rw [fq h2]
      exact hn.fac (sq h2 hr') _
    · by_cases h2 : r = p
      · subst h2
        right
        refine ⟨?_, fp' _ _, by simp [joined, h1]⟩
        rw [fq h1]
        exact hn.fac (sq h1 hq) _
      · simp only [joined, h1, h2, and_self, or_self, if_false, fq h1, fq h2]
        exact hr.pair q r (sq h1 hq) (sq h2 hr') hqr

theorem life_rel (hnear : NearOk near) {l : List (Op × Bool)} (hr : Rel dim h c) (hl : Life fp near pred dim hor h l k) : ∃ c', SpecLife dim near c l c' ∧ Rel dim k c' := by
  induction hl generalizing c with
  | nil h => exact ⟨c, .nil c, hr⟩
  | @call h h1 h2 ev a l hw hs r ih =>
    cases a with
    | true =>
      obtain ⟨c1, s1, r1⟩ := Hdl.accepted hnear hr ev hw hs
      obtain ⟨c2, s2, r2⟩ := ih r1
      exact ⟨c2, .accept s1 s2, r2⟩
    | false =>
      rw [Hdl.rejected hr ev hw hs] at ih
      obtain ⟨c2, s2, r2⟩ := ih hr
      exact ⟨c2, .reject s2, r2⟩
  | @join h h2 p b t l hb hn ha r ih =>
    obtain ⟨c2, s2, r2⟩ := ih (join_rel hr hb hn ha)
    refine ⟨c2, ?_, r2⟩
    have : (Hdl.addInst hor h p (Inst.doInit ⟨[], [], 0⟩ b t)).2 = true := by unfold Hdl.addInst; rw [ha]; rfl
    rw [this]
    exact .join s2
  | @leave h h2 p l hp r ih =>
    obtain ⟨i, hi⟩ := Option.isSome_iff_exists.mp hp
    have e : Hdl.removeInst h p = (SMap.erase h p, true) := by unfold Hdl.removeInst; rw [hi]
    rw [e] at ih
    obtain ⟨c2, s2, r2⟩ := ih (leave_rel hr p)
    refine ⟨c2, ?_, r2⟩
    rw [e]
    exact .leave s2

/-- C138. Instances join (under new IDs) and leave between any calls: every instance that is there ends with the belief the
centralised filter with the same changes of membership has of it, and the cross-covariance of every two instances at the same time is
the one of that filter. -/
theorem c138_members (hnear : NearOk near) (hi : Hdl.Init dim h0 c0) {l : List (Op × Bool)} (hl : Life fp near pred dim hor h0 l h) :
    ∃ c, SpecLife dim near c0 l c ∧ (∀ q s, Newest h q s → c.tm q = s ∧ ∃ b, Hdl.belief h q s = some b ∧ b.mean = c.mu q ∧ b.Sigma = c.cov q q ∧ b.fixed = c.fix q) ∧
      ∀ q r s, Newest h q s → Newest h r s → Hdl.IsCov dim h q r s (c.cov q r) := by
  obtain ⟨c, s, r⟩ := life_rel hnear hi.rel hl
  refine ⟨c, s, fun q s hq => ?_, fun q r' s hq hr' => r.isCov hq hr'⟩
  obtain ⟨h1, h2⟩ := hq.rel r
  obtain ⟨x, e1, e2, e3, -, e4⟩ := r.bel q h1
  rw [h2] at e1
  exact ⟨h2, x, e1, e2, e3, e4⟩

/-- C138. An instance that joins brings its beliefs and its correlations as they are, and takes over the horizon of the handler. -/
theorem c138_joining (hor : ℚ) {h : Hdl} {p : ℕ} (i : Inst) (ha : h.find p = none) :
    ∃ j, (Hdl.addInst hor h p i).1.find p = some j ∧ j.bel = i.bel ∧ j.ccf = i.ccf ∧ j.hor = hor :=
  ⟨Hdl.withHorizon i hor, by rw [find_add (by rw [ha]; rfl), if_pos rfl], rfl, rfl, rfl⟩

/-- C138. An instance is added, and the answer is yes, exactly if its ID is not in use; an instance is removed, and the answer is yes, exactly if there is one. Otherwise the
answer is no and nothing changes. The other instances are never touched. -/
theorem c138_answers (hor : ℚ) (h : Hdl) (p : ℕ) (i : Inst) :
    ((Hdl.addInst hor h p i).2 = true ↔ h.find p = none) ∧ ((Hdl.addInst hor h p i).2 = false → (Hdl.addInst hor h p i).1 = h) ∧
    ((Hdl.addInst hor h p i).1.find p).isSome ∧ (∀ q, q ≠ p → (Hdl.addInst hor h p i).1.find q = h.find q) ∧
    ((Hdl.removeInst h p).2 = true ↔ (h.find p).isSome) ∧ ((Hdl.removeInst h p).2 = false → (Hdl.removeInst h p).1 = h) ∧
    (Hdl.removeInst h p).1.find p = none ∧ ∀ q, q ≠ p → (Hdl.removeInst h p).1.find q = h.find q := by
  cases hf : h.find p with
  | none =>
    have ha : (h.find p).isSome = false := by rw [hf]; rfl
    have e1 : (Hdl.addInst hor h p i).2 = true := by unfold Hdl.addInst; rw [ha]; rfl
    have e2 : Hdl.removeInst h p = (h, false) := by unfold Hdl.removeInst; rw [hf]
    refine ⟨by simp [e1], by simp [e1], by rw [find_add ha, if_pos rfl]; rfl, fun q hq => by rw [find_add ha, if_neg (Ne.symm hq)], by simp [e2], by simp [e2], by rw [e2]; exact hf,
      fun q _ => by rw [e2]⟩
  | some j =>
    have e1 : Hdl.addInst hor h p i = (h, false) := by unfold Hdl.addInst; rw [hf]; rfl
    have e2 : Hdl.removeInst h p = (SMap.erase h p, true) := by unfold Hdl.removeInst; rw [hf]
    refine ⟨by simp [e1], by simp [e1], by rw [e1, hf]; rfl, fun q _ => by rw [e1], by simp [e2], by simp [e2], by rw [e2]; simp only; rw [SMap.find_erase, if_pos rfl],
      fun q hq => by rw [e2]; simp only; rw [SMap.find_erase, if_neg (Ne.symm hq)]⟩

/-! ### The others do not notice -/

theorem used_dom (hnear : NearOk near) {evs : List Ev} {as : List Bool} (hr : Rel dim h c) (hu : Used fp near pred dim h evs as k) (q : ℕ) :
    (k.find q).isSome = (h.find q).isSome := by
  induction hu generalizing c with
  | nil h => rfl
  | step hw hf hs r ih =>
    obtain ⟨c1, -, r1⟩ := Commute.run_acts hnear hr hw hs
    rw [ih r1, Hdl.step_dom hr _ hw hs]

/-- The calls made on a handler, made on one with fewer instances that has those the calls concern. -/
theorem down (hnear : NearOk near) {g : Hdl} {d : Central} {evs : List Ev} {as : List Bool} (hb : Both idn dim dim g h d c)
    (hc : ∀ ev ∈ evs, ∀ q, Concerns ev q → (h.find q).isSome → (g.find q).isSome) (hu : Used fp near pred dim h evs as k) :
    ∃ k' d' c', Used fp near pred dim g evs as k' ∧ Both idn dim dim k' k d' c' := by
  induction hu generalizing g d c with
  | nil h => exact ⟨g, d, c, Used.nil g, hb⟩
  | @step h h1 h2 ev a evs as hw hf hs r ih =>
    have kn : ∀ q, Concerns ev q → (g.find q).isSome := fun q hq => hc ev List.mem_cons_self q hq (Commute.known hb.rel' hw hq)
    have sm : Same idn (Concerns ev) c d := ⟨fun q hq => (hb.same.tm q (kn q hq)).symm, fun q hq => (hb.same.mu q (kn q hq)).symm, fun q hq => (hb.same.fix q (kn q hq)).symm,
      fun q r hq hr => (hb.same.cov q r (kn q hq) (kn r hr)).symm⟩
    obtain ⟨hw', hf'⟩ := Commute.wf_local' hb.rel' hb.rel sm kn hw hf
    obtain ⟨g1, a', hs', -⟩ := Hdl.progress_rel (fp := fp) (pred := pred) hnear hb.rel ev hw' hf'
    obtain rfl := Commute.answer_local hnear hb.rel' hb.rel sm hw hf hw' hf' hs hs'
    obtain ⟨c1, A1, r1⟩ := Commute.run_acts hnear hb.rel' hw hs
    obtain ⟨d1, B1, r1'⟩ := Commute.run_acts hnear hb.rel hw' hs'
    have dm := Hdl.step_dom hb.rel' ev hw hs
    have dm' := Hdl.step_dom hb.rel ev hw' hs'
    have st := Commute.acts_same hb.same (Linear.sized hb.rel hw' hf') B1 A1
    obtain ⟨k', d', c', u, hb'⟩ := ih (g := g1) (d := d1) (c := c1) ⟨r1', r1, fun q hq => by rw [dm'] at hq; rw [dm]; exact hb.known q hq, by
      simp only [dm' _]; exact st⟩ (fun e he q hq hq' => by rw [dm']; rw [dm] at hq'; exact hc e (List.mem_cons_of_mem _ he) q hq hq')
    exact ⟨k', d', c', Used.step hw' hf' hs' u, hb'⟩

/-- C138. After an instance has left, the calls that do not concern it are answered as if it were still there, and the estimates of the
others and their correlations are the same. -/
theorem c138_leave (hnear : NearOk near) (hi : Hdl.Init dim h0 c0) {l : List (Op × Bool)} (hl : Life fp near pred dim hor h0 l h) (p : ℕ) {after : List Ev} {as : List Bool}
    (hc : ∀ ev ∈ after, ¬ Concerns ev p) (hu : Used fp near pred dim h after as k) :
    ∃ k', Used fp near pred dim (Hdl.removeInst h p).1 after as k' ∧ (∀ q, q ≠ p → (k'.find q).isSome = (k.find q).isSome) ∧ Agree dim k' k := by
  obtain ⟨c, -, r⟩ := life_rel hnear hi.rel hl
  have e : ∀ q, q ≠ p → (Hdl.removeInst h p).1.find q = h.find q := by
    intro q hq
    unfold Hdl.removeInst
    cases hf : h.find p with
    | none => rfl
    | some i => simp only; rw [SMap.find_erase, if_neg (Ne.symm hq)]
  have r' : Rel dim (Hdl.removeInst h p).1 c := by
    unfold Hdl.removeInst
    cases hf : h.find p with
    | none => exact r
    | some i => exact leave_rel r p
  have sub : ∀ q, ((Hdl.removeInst h p).1.find q).isSome → (h.find q).isSome := by
    intro q hq
    by_cases hqp : q = p
    · subst hqp
      unfold Hdl.removeInst at hq
      cases hf : h.find q with
      | none => rw [hf] at hq; simp only [hf] at hq; cases hq
      | some i => rfl
    · rw [e q hqp] at hq; exact hq
  obtain ⟨k', d', c', u, hb⟩ := down hnear ⟨r', r, sub, Commute.same_refl⟩ (fun ev he q hq hq' => by
    rw [e q (fun h => hc ev he (h ▸ hq))]; exact hq') hu
  refine ⟨k', u, fun q hq => ?_, hb.read⟩
  have d1 := used_dom hnear r hu
  have d2 := used_dom hnear r' u
  rw [d1, d2, e q hq]

/-- C138. After an instance has joined under a new ID, the calls the others had before are answered as without it, with the same estimates;
the estimate of the new one stays what it was, uncorrelated with the others. -/
theorem c138_join (hnear : NearOk near) (hi : Hdl.Init dim h0 c0) {l : List (Op × Bool)} (hl : Life fp near pred dim hor h0 l h) (hb : Fresh (dim p) b t) (hn : New h p)
    (ha : (h.find p).isSome = false) {after : List Ev} {as : List Bool} (hu : Used fp near pred dim h after as k) :
    ∃ k', Used fp near pred dim (Hdl.addInst hor h p (Inst.doInit ⟨[], [], 0⟩ b t)).1 after as k' ∧ Agree dim k k' ∧
      (Newest k' p t ∧ ∃ b', Hdl.belief k' p t = some b' ∧ b'.mean = b.mean ∧ b'.Sigma = b.Sigma ∧ b'.fixed = b.fixed) ∧
      ∀ q, (k.find q).isSome → Newest k' q t → Hdl.IsCov dim k' q p t (Mat.zero (dim q) (dim p)) := by
  obtain ⟨c, -, r⟩ := life_rel hnear hi.rel hl
  have fd := find_add (hor := hor) ha (Inst.doInit ⟨[], [], 0⟩ b t)
  have rj := join_rel (hor := hor) r hb hn ha
  have hI := Fresh.init (hor := hor) hb
  generalize (Hdl.addInst hor h p (Inst.doInit ⟨[], [], 0⟩ b t)).1 = g at fd rj ⊢
  generalize hcb : joined dim ⟨fun _ => t, fun _ => b.mean, fun a d => Mat.zero (dim a) (dim d), fun _ => b.fixed⟩ p b t = cb at hI
  have nep : ∀ q, (h.find q).isSome → q ≠ p := by rintro q hq rfl; rw [ha] at hq; cases hq
  have onep : ∀ q, (SMap.find [(p, Hdl.withHorizon (Inst.doInit ⟨[], [], 0⟩ b t) hor)] q).isSome → q = p := by
    intro q hq
    simp only [SMap.find] at hq
    split at hq
    · rename_i e; exact (show p = q from e).symm
    · cases hq
  have th : Three dim h [(p, Hdl.withHorizon (Inst.doInit ⟨[], [], 0⟩ b t) hor)] g c cb (joined dim c p b t) := by
    refine ⟨⟨r, rj, fun q hq => ?_, ?_⟩, ⟨hI.rel, rj, fun q hq => ?_, ?_⟩, fun q h1 h2 => nep q h1 (onep q h2), fun q q' hq hq' i j => ?_⟩
    · show (g.find q).isSome
      rw [fd, if_neg (Ne.symm (nep q hq))]; exact hq
    · refine ⟨fun q hq => ?_, fun q hq => ?_, fun q hq => ?_, fun q q' hq hq' => ?_⟩
      · simp [joined, nep q hq]
      · simp [joined, nep q hq]
      · simp [joined, nep q hq]
      · simp [joined, nep q hq, nep q' hq']
    · obtain rfl := onep q hq
      show (g.find q).isSome
      rw [fd, if_pos rfl]; rfl
    · refine ⟨fun q hq => ?_, fun q hq => ?_, fun q hq => ?_, fun q q' hq hq' => ?_⟩
      · obtain rfl := onep q hq; simp [joined, ← hcb]
      · obtain rfl := onep q hq; simp [joined, ← hcb]
      · obtain rfl := onep q hq; simp [joined, ← hcb]
      · obtain rfl := onep q hq; obtain rfl := onep q' hq'; simp [joined, ← hcb]
    · obtain rfl := onep q' hq'
      have := nep q hq
      simp [joined, this, zero_e]
  have key : ∀ {h g c d : _} {e : Central} (_ : Three dim h [(p, Hdl.withHorizon (Inst.doInit ⟨[], [], 0⟩ b t) hor)] g c d e) {k : Hdl} {after : List Ev} {as : List Bool}
      (_ : Used fp near pred dim h after as k), ∃ k' c' e', Used fp near pred dim g after as k' ∧ Three dim k [(p, Hdl.withHorizon (Inst.doInit ⟨[], [], 0⟩ b t) hor)] k' c' d e' := by
    intro h g c d e th k after as hu
    induction hu generalizing g c e with
    | nil h => exact ⟨g, c, e, Used.nil g, th⟩
    | step hw hf hs _ ih =>
      obtain ⟨w', f', g1, c1, e1, s', th'⟩ := th.step (pred' := pred) hnear hw hf hs
      obtain ⟨k', c2, e2, u, th2⟩ := ih th'
      exact ⟨k', c2, e2, Used.step w' f' s' u, th2⟩
  obtain ⟨k', c1, e1, u, th'⟩ := key th hu
  obtain ⟨a1, a2, a3⟩ := th'.read
  have np : Newest [(p, Hdl.withHorizon (Inst.doInit ⟨[], [], 0⟩ b t) hor)] p t := ⟨_, (t, b), by simp [SMap.find]; rfl, rfl, rfl⟩
  refine ⟨k', u, a1, ?_, fun q hq hq' => ?_⟩
  · obtain ⟨n', x, x', x1, x2, x3, x4, x5⟩ := a2.belief p t np
    have hx : Hdl.belief [(p, Hdl.withHorizon (Inst.doInit ⟨[], [], 0⟩ b t) hor)] p t = some b := by
      simp [Hdl.belief, SMap.find, Hdl.withHorizon, Inst.doInit, Inst.beliefAt, Inst.reset, Buf.insertMap, Buf.getAt]
    obtain rfl := Option.some.inj (x1.symm.trans hx)
    exact ⟨n', x', x2, x3, x4, x5⟩
  · exact (a3 q p t hq (by simp [SMap.find]) hq' (a2.belief p t np).1).1
end

/-! ## Example: 1 and 2 get correlated, 3 joins and moves, 1 leaves -/

namespace Example
open Hdl.Example (s s_shape s_tr near nearOk pred cfg gate)
open Rename.Example (dim)
open Linear.Example (bel hdl init newest known)

theorem fresh (m v : ℝ) : Fresh 1 (bel m v) 0 := ⟨Nat.one_pos, rfl, s_shape m, s_shape v, s_tr v⟩

theorem wf : Wf dim (hdl 3 5) (.setCov 1 2 (s 1) 0) := ⟨by decide, newest (Or.inl rfl), newest (Or.inr rfl), rfl, rfl⟩

noncomputable def one1 (m v : ℝ) (J : ℕ) (F : Mat) : Inst := ⟨[(0, bel m v)], [(J, [(0, F)])], 10⟩
noncomputable def corr : Hdl := [(1, one1 3 2 2 (s 1)), (2, one1 5 7 1 (one 1))]

theorem run1 : run FP.exact near pred (hdl 3 5) (.setCov 1 2 (s 1) 0) = .ok (corr, true) := by
  simp [run, Hdl.setSigma, Hdl.get, hdl, SMap.find, SMap.set, Inst.setCCF, Inst.doInit, Inst.reset, Buf.insertMap, corr, one1, SMap.emplace, Res.bind_ok]
  try rfl

/-- C138, the statement for an ID that is used again is wrong: when an instance has left, the others still list it as correlated; an
instance that joins under its ID is listed by them without listing them. -/
theorem c138_reused_fails : ∃ h k : Hdl, (∃ c, Hdl.Init dim h c) ∧ Life FP.exact near pred dim 10 h [(.call (.setCov 1 2 (s 1) 0), true), (.leave 1, true)] k ∧ k.find 1 = none ∧
    ∃ i j, (Hdl.addInst 10 k 1 (Inst.doInit ⟨[], [], 0⟩ (bel 4 6) 0)).1.find 1 = some i ∧ (Hdl.addInst 10 k 1 (Inst.doInit ⟨[], [], 0⟩ (bel 4 6) 0)).1.find 2 = some j ∧
      1 ∈ j.correlated ∧ 2 ∉ i.correlated := by
  have e : Hdl.removeInst corr 1 = ([(2, one1 5 7 1 (one 1))], true) := by simp [Hdl.removeInst, corr, SMap.find, SMap.erase]
  refine ⟨hdl 3 5, [(2, one1 5 7 1 (one 1))], ⟨_, init 3 5⟩, ?_, by simp [SMap.find], Hdl.withHorizon (Inst.doInit ⟨[], [], 0⟩ (bel 4 6) 0) 10, one1 5 7 1 (one 1), ?_, ?_, ?_, ?_⟩
  · refine Life.call wf run1 ?_
    have := Life.leave (fp := FP.exact) (near := near) (pred := pred) (dim := dim) (hor := 10) (h := corr) (p := 1) (l := []) (h2 := [(2, one1 5 7 1 (one 1))]) (by simp [corr, SMap.find]) (by rw [e]; exact Life.nil _)
    rw [e] at this
    exact this
  · rw [find_add (by simp [SMap.find])]; simp
  · rw [find_add (by simp [SMap.find])]; simp [SMap.find]
  · simp [Inst.correlated, one1, SMap.keys]
  · simp [Inst.correlated, Hdl.withHorizon, Inst.doInit, Inst.reset, SMap.keys]

theorem life : ∃ k, Life FP.exact near pred dim 10 (hdl 3 5) [(.call (.setCov 1 2 (s 1) 0), true), (.join 3 (bel 4 6) 0, true), (.call (.propKF 3 (s 2) (s 1) 0 5), true), (.leave 1, true)] k := by
  have hn : New corr 3 := by
    intro q i hq
    simp only [corr, SMap.find] at hq
    split at hq
    · rw [← Option.some.inj hq]; simp [Inst.correlated, one1, SMap.keys]
    · split at hq
      · rw [← Option.some.inj hq]; simp [Inst.correlated, one1, SMap.keys]
      · cases hq
  have ha : (corr.find 3).isSome = false := by simp [corr, SMap.find]
  obtain ⟨c1, s1, r1⟩ := Hdl.accepted nearOk (init 3 5).rel _ wf run1
  have r2 := join_rel (hor := 10) r1 (p := 3) (fresh 4 6) hn ha
  have fa := find_add (hor := 10) ha (Inst.doInit ⟨[], [], 0⟩ (bel 4 6) 0)
  have a2 : (Hdl.addInst 10 corr 3 (Inst.doInit ⟨[], [], 0⟩ (bel 4 6) 0)).2 = true := by unfold Hdl.addInst; rw [ha]; rfl
  have hw : Wf dim (Hdl.addInst 10 corr 3 (Inst.doInit ⟨[], [], 0⟩ (bel 4 6) 0)).1 (.propKF 3 (s 2) (s 1) 0 5) :=
    ⟨Newest.of_rel r2 (by rw [fa]; simp) (by simp [joined]), by norm_num, s_tr 1⟩
  obtain ⟨h3, a, e3, h⟩ := Hdl.progress_rel (fp := FP.exact) (pred := pred) nearOk r2 _ hw ⟨s_shape 2, s_shape 1⟩
  obtain rfl := h trivial
  have d3 := Hdl.step_dom r2 _ hw e3
  have p1 : (h3.find 1).isSome := by rw [d3, fa]; simp [corr, SMap.find]
  refine ⟨(Hdl.removeInst h3 1).1, Life.call wf run1 ?_⟩
  have l3 : Life FP.exact near pred dim 10 h3 [(.leave 1, true)] (Hdl.removeInst h3 1).1 := by
    have := Life.leave (fp := FP.exact) (near := near) (pred := pred) (dim := dim) (hor := 10) p1 (Life.nil _)
    have e : (Hdl.removeInst h3 1).2 = true := by
      unfold Hdl.removeInst
      obtain ⟨i, hi⟩ := Option.isSome_iff_exists.mp p1
      rw [hi]
    rw [e] at this
    exact this
  have := Life.join (fp := FP.exact) (near := near) (pred := pred) (dim := dim) (hor := 10) (p := 3) (fresh 4 6) hn ha (Life.call hw e3 l3)
  rw [a2] at this
  exact this

example : ∃ k c, Life FP.exact near pred dim 10 (hdl 3 5) [(.call (.setCov 1 2 (s 1) 0), true), (.join 3 (bel 4 6) 0, true), (.call (.propKF 3 (s 2) (s 1) 0 5), true), (.leave 1, true)] k ∧
    SpecLife dim near (Rename.Example.cen (bel 3 2) (bel 5 7)) [(.call (.setCov 1 2 (s 1) 0), true), (.join 3 (bel 4 6) 0, true), (.call (.propKF 3 (s 2) (s 1) 0 5), true), (.leave 1, true)] c := by
  obtain ⟨k, l⟩ := life
  obtain ⟨c, e, -⟩ := c138_members nearOk (init 3 5) l
  exact ⟨k, c, l, e⟩

end Example

end Members
end Ikf
