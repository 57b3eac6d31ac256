import Verif.Lemmas.CollabLoops

/-!
# The two sides of an accepted inter-agent update against one handler
-/

namespace Ikf
open Mat
namespace Collab

variable {P dx : Mat} {N : ℕ} {t : Int} {q : ℕ → Bool}

theorem applyCorrL_upds (hP : P.Shape N N) (d : SMap Belief) : ∀ s (l : Hdl), s + total d ≤ N → (∀ e ∈ d, (l.find e.1).isSome = q e.1) →
    applyCorrL P t d s l =
      upds (fun x => x.1.1) (fun x i => i.applyCorrectionSigma t x.1.2.Sigma (blk P x)) ((posn d s).filter (fun x => q x.1.1)) l := by
  induction d with
  | nil => intro s h _ _; rfl
  | cons e r ih =>
    intro s l hs hq
    simp only [total] at hs
    have hqe := hq e List.mem_cons_self
    rw [applyCorrL, posn, blockC_ok (by rw [hP.1]; omega) (by rw [hP.2]; omega), Res.bind_ok, List.filter_cons]
    cases hf : l.find e.1 with
    | none =>
      rw [hf] at hqe
      have : q e.1 = false := hqe.symm
      simp only [this, Bool.false_eq_true, if_false]
      exact ih _ l (by omega) (fun x hx => hq x (List.mem_cons_of_mem _ hx))
    | some i =>
      rw [hf] at hqe
      have : q e.1 = true := hqe.symm
      simp only [this, if_true]
      rw [upds, Hdl.get_ok hf, Res.bind_ok]
      show (i.applyCorrectionSigma t e.2.Sigma (blk P (e, s)) >>= _) = _
      cases hj : i.applyCorrectionSigma t e.2.Sigma (blk P (e, s)) with
      | throws => rfl
      | ub => rfl
      | ok j =>
        rw [Res.bind_ok, Res.bind_ok]
        refine ih _ _ (by omega) (fun x hx => ?_)
        rw [SMap.find_set]
        split
        · rename_i he; rw [← he, this]; rfl
        · exact hq x (List.mem_cons_of_mem _ hx)

theorem setFCCs_upds (G : SMap (SMap Mat)) (loc : List ℕ) (hG : ∀ I ∈ loc, (G.find I).isSome) : ∀ l : Hdl,
    setFCCs t G loc l = upds id (fun I i => .ok (setRow t (rowOf G I) i)) loc l := by
  induction loc with
  | nil => intro l; rfl
  | cons I r ih =>
    intro l
    obtain ⟨row, hr⟩ := Option.isSome_iff_exists.mp (hG I List.mem_cons_self)
    rw [setFCCs, upds]
    have h1 : at' G I = .ok row := by unfold at'; rw [hr]
    have h2 : rowOf G I = row := by unfold rowOf; rw [hr]; rfl
    rw [h1, Res.bind_ok, h2]
    simp only [ih (fun J hJ => hG J (List.mem_cons_of_mem _ hJ))]
    rfl

/-- Body of `remoteSet`. -/
noncomputable def remote1 (t : Int) (F : SMap (SMap Mat)) (e : ℕ × Belief) (i : Inst) : Res Inst :=
  match F.find e.1 with
  | some row => do
    let b0 ← (match i.beliefAt t with | some b => .ok b | none => .throws : Res Belief)
    let j ← i.applyCorrectionSigma t b0.Sigma e.2.Sigma
    .ok ((setRow t row j).setBelief e.2 t)
  | none => .ok (i.setBelief e.2 t)

theorem remoteSet_upds (F : SMap (SMap Mat)) (rb : SMap Belief) : ∀ rm : Hdl,
    remoteSet t F rb rm = upds (fun e => e.1) (remote1 t F) rb rm := by
  induction rb with
  | nil => intro rm; rfl
  | cons e r ih =>
    intro rm
    rw [remoteSet, upds]
    cases Hdl.get rm e.1 with
    | throws => rfl
    | ub => rfl
    | ok i =>
      rw [Res.bind_ok, Res.bind_ok]
      unfold remote1
      cases F.find e.1 with
      | none => exact ih _
      | some row =>
        simp only
        cases i.beliefAt t with
        | none => rfl
        | some b0 =>
          rw [Res.bind_ok, Res.bind_ok]
          cases i.applyCorrectionSigma t b0.Sigma e.2.Sigma with
          | throws => rfl
          | ub => rfl
          | ok j => exact ih _

theorem correctL_ok (hP : P.Shape N N) (hx : dx.Shape N 1) (d : SMap Belief) (hd : (d.map (·.1)).Nodup) (hu : ∀ e ∈ d, e.2.fixed = false) :
    ∀ s (l : Hdl) (rb : SMap Belief) (y : Hdl × SMap Belief), s + total d ≤ N → (∀ e ∈ d, (l.find e.1).isSome = q e.1) →
    correctL P dx t d s (l, rb) = .ok y →
    (∀ x ∈ posn d s, q x.1.1 = true → ∃ i b, l.find x.1.1 = some i ∧ x.1.2.correct (seg dx x) (blk P x) = .ok b ∧
      y.1.find x.1.1 = some (i.setBelief b t)) ∧
    (∀ p, (p ∉ d.map (·.1) ∨ q p = false) → y.1.find p = l.find p) ∧
    (∀ x ∈ posn d s, q x.1.1 = false → ∃ b, x.1.2.correct (seg dx x) (blk P x) = .ok b ∧ y.2.find x.1.1 = some b) ∧
    (∀ p, (p ∉ d.map (·.1) ∨ q p = true) → y.2.find p = rb.find p) ∧ (rb.Sorted → y.2.Sorted) := by
  induction d with
  | nil =>
    intro s l rb y _ _ e
    rw [correctL] at e
    rw [← Res.ok.inj e]
    simp [posn]
  | cons e r ih =>
    intro s l rb y hs hq h
    simp only [total] at hs
    rw [List.map_cons, List.nodup_cons] at hd
    have hqe := hq e List.mem_cons_self
    rw [correctL, hu e List.mem_cons_self, if_pos (by rfl), blockC_ok (by rw [hP.1]; omega) (by rw [hP.2]; omega), Res.bind_ok,
      blockC_ok (by rw [hx.1]; omega) (by rw [hx.2]), Res.bind_ok] at h
    obtain ⟨b, hb, h⟩ := Hdl.bind_eq_ok h
    have hb' : e.2.correct (seg dx (e, s)) (blk P (e, s)) = .ok b := hb
    have hu' := fun x hx => hu x (List.mem_cons_of_mem e hx)
    cases hf : l.find e.1 with
    | none =>
      rw [hf] at hqe h
      have hqf : q e.1 = false := hqe.symm
      obtain ⟨a1, a2, a3, a4, a5⟩ := ih hd.2 hu' _ _ _ _ (by omega) (fun x hx => hq x (List.mem_cons_of_mem _ hx)) h
      refine ⟨?_, ?_, ?_, ?_, fun hs => a5 (hs.set _ _)⟩
      · intro x hx hqx
        rw [posn] at hx
        rcases List.mem_cons.mp hx with rfl | hx
        · rw [hqf] at hqx; simp at hqx
        · exact a1 x hx hqx
      · intro p hp
        by_cases hpe : p = e.1
        · subst hpe; exact a2 _ (Or.inr hqf)
        · refine a2 p (hp.imp (fun h hm => h ?_) id)
          rw [List.map_cons]; exact List.mem_cons_of_mem _ hm
      · intro x hx hqx
        rw [posn] at hx
        rcases List.mem_cons.mp hx with rfl | hx
        · exact ⟨b, hb', by rw [a4 _ (Or.inl hd.1), SMap.find_set_self]⟩
        · exact a3 x hx hqx
      · intro p hp
        have hpe : e.1 ≠ p := by
          rintro rfl
          rcases hp with h | h
          · exact h (by rw [List.map_cons]; exact List.mem_cons_self)
          · rw [hqf] at h; simp at h
        rw [a4 p (hp.imp (fun h hm => h (by rw [List.map_cons]; exact List.mem_cons_of_mem _ hm)) id), SMap.find_set_ne _ hpe]
    | some i =>
      rw [hf] at hqe h
      have hqt : q e.1 = true := hqe.symm
      obtain ⟨a1, a2, a3, a4, a5⟩ := ih hd.2 hu' _ _ _ _ (by omega) (fun x hx => by
        rw [SMap.find_set]
        split
        · rename_i he; rw [← he, hqt]; rfl
        · exact hq x (List.mem_cons_of_mem _ hx)) h
      have hnk : ∀ x ∈ posn r (s + e.2.dim), e.1 ≠ x.1.1 := by
        intro x hx he
        exact hd.1 (List.mem_map.mpr ⟨x.1, (posn_mem r _ x hx).1, he.symm⟩)
      refine ⟨?_, ?_, ?_, ?_, a5⟩
      · intro x hx hqx
        rw [posn] at hx
        rcases List.mem_cons.mp hx with rfl | hx
        · exact ⟨i, b, hf, hb', by rw [a2 _ (Or.inl hd.1), SMap.find_set_self]⟩
        · obtain ⟨i', b', c1, c2, c3⟩ := a1 x hx hqx
          rw [SMap.find_set_ne _ (hnk x hx)] at c1
          exact ⟨i', b', c1, c2, c3⟩
      · intro p hp
        have hpe : e.1 ≠ p := by
          rintro rfl
          rcases hp with h | h
          · exact h (by rw [List.map_cons]; exact List.mem_cons_self)
          · rw [hqt] at h; simp at h
        rw [a2 p (hp.imp (fun h hm => h (by rw [List.map_cons]; exact List.mem_cons_of_mem _ hm)) id), SMap.find_set_ne _ hpe]
      · intro x hx hqx
        rw [posn] at hx
        rcases List.mem_cons.mp hx with rfl | hx
        · rw [hqt] at hqx; simp at hqx
        · exact a3 x hx hqx
      · intro p hp
        by_cases hpe : p = e.1
        · subst hpe; exact a4 _ (Or.inr hqt)
        · refine a4 p (hp.imp (fun h hm => h ?_) id)
          rw [List.map_cons]; exact List.mem_cons_of_mem _ hm

theorem correctL_ex (hP : P.Shape N N) (hx : dx.Shape N 1) (d : SMap Belief) (hu : ∀ e ∈ d, e.2.fixed = false) :
    ∀ s (l : Hdl) (rb : SMap Belief), s + total d ≤ N →
    (∀ x ∈ posn d s, ∃ b, x.1.2.correct (seg dx x) (blk P x) = .ok b) → ∃ y, correctL P dx t d s (l, rb) = .ok y := by
  induction d with
  | nil => intro s l rb _ _; exact ⟨_, rfl⟩
  | cons e r ih =>
    intro s l rb hs hc
    simp only [total] at hs
    obtain ⟨b, hb⟩ := hc (e, s) (by rw [posn]; exact List.mem_cons_self)
    have hb' : e.2.correct (dx.block s 0 e.2.dim 1) (P.block s s e.2.dim e.2.dim) = .ok b := hb
    rw [correctL, hu e List.mem_cons_self, if_pos (by rfl), blockC_ok (by rw [hP.1]; omega) (by rw [hP.2]; omega), Res.bind_ok,
      blockC_ok (by rw [hx.1]; omega) (by rw [hx.2]), Res.bind_ok, hb', Res.bind_ok]
    have hu' := fun x hx => hu x (List.mem_cons_of_mem e hx)
    have hc' : ∀ x ∈ posn r (s + e.2.dim), ∃ b, x.1.2.correct (seg dx x) (blk P x) = .ok b :=
      fun x hx => hc x (by rw [posn]; exact List.mem_cons_of_mem _ hx)
    cases l.find e.1 with
    | none => exact ih hu' _ _ _ (by omega) hc'
    | some i => exact ih hu' _ _ _ (by omega) hc'

theorem find_pick (F : SMap (SMap Mat)) (ids : List ℕ) (p : ℕ) :
    (pick F ids).find p = if p ∈ ids then some (rowOf F p) else none := by
  have : ∀ (ids : List ℕ) (m : SMap (SMap Mat)),
      (ids.foldl (fun m p => m.set p ((F.find p).getD [])) m).find p = if p ∈ ids then some (rowOf F p) else m.find p := by
    intro ids
    induction ids with
    | nil => intro m; simp
    | cons a r ih =>
      intro m
      rw [List.foldl_cons, ih, SMap.find_set]
      by_cases h1 : p ∈ r
      · rw [if_pos h1, if_pos (List.mem_cons_of_mem _ h1)]
      · rw [if_neg h1]
        by_cases h2 : a = p
        · subst h2; rw [if_pos rfl, if_pos List.mem_cons_self]; rfl
        · rw [if_neg h2, if_neg (by rw [List.mem_cons, not_or]; exact ⟨fun e => h2 e.symm, h1⟩)]
  unfold pick; rw [this]; rfl

/-- Both sides of an accepted update. -/
noncomputable def interCommit (P dx : Mat) (t : Int) (d rb : SMap Belief) (remote loc : List ℕ) (l rm : Hdl) : Res (Hdl × Hdl) := do
  let l1 ← applyCorrL P t d 0 l
  let G ← splitL P d
  let l2 ← setFCCs t G loc l1
  let x ← correctL P dx t d 0 (l2, rb)
  let rm' ← remoteSet t (pick G remote) x.2 rm
  .ok (x.1, rm')

/-- The situation: `l` holds the participants in `q`, `rm` the other ones, `h` all of them. -/
structure Sides (d rb : SMap Belief) (remote loc : List ℕ) (t : Int) (q : ℕ → Bool) (l rm h : Hdl) : Prop where
  sorted : d.Sorted
  ne : d ≠ []
  two : 2 ≤ d.length ∨ loc = []
  unfixed : ∀ e ∈ d, e.2.fixed = false
  hq : ∀ p, (l.find p).isSome = true → q p = true
  left : ∀ e ∈ d, q e.1 = true → l.find e.1 = h.find e.1 ∧ (l.find e.1).isSome
  right : ∀ e ∈ d, q e.1 = false → rm.find e.1 = h.find e.1
  stored : ∀ e ∈ d, q e.1 = false → ∃ i, rm.find e.1 = some i ∧ i.beliefAt t = some e.2
  rbs : rb.Sorted
  hrb : ∀ e ∈ rb, q e.1 = false ∧ (e.1 ∉ d.map (·.1) → ∃ i, rm.find e.1 = some i ∧ i.setBelief e.2 t = i)
  locn : loc.Nodup
  hloc : ∀ p, p ∈ loc ↔ p ∈ d.map (·.1) ∧ q p = true
  hrem : ∀ p, p ∈ remote ↔ p ∈ d.map (·.1) ∧ q p = false

section
variable {d rb : SMap Belief} {remote loc : List ℕ} {l rm h : Hdl}

theorem Sides.isSome (hs : Sides d rb remote loc t q l rm h) : ∀ e ∈ d, (l.find e.1).isSome = q e.1 := by
  intro e he
  cases hq : q e.1 with
  | true => exact (hs.left e he hq).2
  | false =>
    cases hl : (l.find e.1).isSome with
    | false => rfl
    | true => rw [hs.hq e.1 hl] at hq; simp at hq

theorem key_inj {d : SMap Belief} (hd : d.Sorted) {e e' : ℕ × Belief} (h1 : e ∈ d) (h2 : e' ∈ d) (hk : e.1 = e'.1) : e = e' := by
  have a := (SMap.find_eq_some hd e.1 e.2).mpr h1
  have b := (SMap.find_eq_some hd e'.1 e'.2).mpr h2
  rw [hk, b] at a
  exact Prod.ext hk (Option.some.inj a).symm

theorem interCommit_sim (hP : P.Shape N N) (hx : dx.Shape N 1) (hN : total d ≤ N) (hs : Sides d rb remote loc t q l rm h)
    {l' rm' : Hdl} (hc : interCommit P dx t d rb remote loc l rm = .ok (l', rm')) :
    ∃ h', Hdl.commit h d P dx t = .ok h' ∧
      (∀ p ∈ d.map (·.1), q p = true → l'.find p = h'.find p) ∧
      (∀ p, (p ∉ d.map (·.1) ∨ q p = false) → l'.find p = l.find p) ∧
      (∀ p ∈ d.map (·.1), q p = false → rm'.find p = h'.find p) ∧
      (∀ p, (p ∉ d.map (·.1) ∨ q p = true) → rm'.find p = rm.find p) ∧
      (∀ p, p ∉ d.map (·.1) → h'.find p = h.find p) := by
  have hnd := Hdl.Sorted.nodup hs.sorted
  obtain ⟨G, eG, hG, hG2⟩ := splitL_row hP d hs.sorted hs.ne hN
  unfold interCommit at hc
  obtain ⟨l1, e1, hc⟩ := Hdl.bind_eq_ok hc
  rw [eG, Res.bind_ok] at hc
  obtain ⟨l2, e2, hc⟩ := Hdl.bind_eq_ok hc
  obtain ⟨y, e3, hc⟩ := Hdl.bind_eq_ok hc
  obtain ⟨rm1, e4, hc⟩ := Hdl.bind_eq_ok hc
  obtain ⟨rfl, rfl⟩ := Prod.mk.inj (Res.ok.inj hc)
  rw [applyCorrL_upds hP d 0 l (by omega) hs.isSome] at e1
  have hnf : (((posn d 0).filter (fun x => q x.1.1)).map (fun x => x.1.1)).Nodup :=
    ((List.filter_sublist (p := fun x => q x.1.1)).map _).nodup (posn_nodup hs.sorted 0)
  obtain ⟨a1, a2⟩ := upds_ok _ hnf e1
  have hlocG : ∀ I ∈ loc, ∃ e ∈ d, e.1 = I ∧ q I = true := by
    intro I hI
    obtain ⟨hI, hq⟩ := (hs.hloc I).mp hI
    obtain ⟨e, he, rfl⟩ := List.mem_map.mp hI
    exact ⟨e, he, rfl, hq⟩
  have hGl : ∀ I ∈ loc, (G.find I).isSome := by
    intro I hI
    obtain ⟨e, he, rfl, -⟩ := hlocG I hI
    rcases hs.two with h2 | h2
    · rw [hG2 h2 e he]; rfl
    · rw [h2] at hI; simp at hI
  rw [setFCCs_upds G loc hGl] at e2
  have hloc : loc.Nodup := hs.locn
  obtain ⟨b1, b2⟩ := upds_ok (key := id) loc (by rw [List.map_id]; exact hloc) e2
  rw [List.map_id] at b2
  have memloc : ∀ x ∈ posn d 0, q x.1.1 = true → x.1.1 ∈ loc := by
    intro x hx hq
    exact (hs.hloc _).mpr ⟨List.mem_map.mpr ⟨x.1, (posn_mem d 0 x hx).1, rfl⟩, hq⟩
  have dom1 : ∀ p, (l1.find p).isSome = (l.find p).isSome := by
    intro p
    by_cases hp : p ∈ ((posn d 0).filter (fun x => q x.1.1)).map (fun x => x.1.1)
    · obtain ⟨x, hx, rfl⟩ := List.mem_map.mp hp
      obtain ⟨i, j, u1, -, u3⟩ := a1 x hx
      rw [u1, u3]; rfl
    · rw [a2 p hp]
  have dom2 : ∀ p, (l2.find p).isSome = (l.find p).isSome := by
    intro p
    by_cases hp : p ∈ loc
    · obtain ⟨i, j, u1, -, u3⟩ := b1 p hp
      simp only [id] at u1 u3
      rw [← dom1 p, u1, u3]; rfl
    · rw [b2 p hp, dom1]
  obtain ⟨c1, c2, c3, c4, c5⟩ := correctL_ok hP hx d hnd hs.unfixed 0 l2 rb y (by omega) (fun e he => by rw [dom2]; exact hs.isSome e he) e3
  have hrbs : rb.Sorted := hs.rbs
  have hy2 := c5 hrbs
  rw [remoteSet_upds] at e4
  obtain ⟨r1, r2⟩ := upds_ok y.2 (Hdl.Sorted.nodup hy2) e4
  have notloc : ∀ p, p ∉ d.map (·.1) ∨ q p = false → p ∉ loc ∧ p ∉ ((posn d 0).filter (fun x => q x.1.1)).map (fun x => x.1.1) := by
    intro p hp
    refine ⟨?_, ?_⟩
    · intro hm
      obtain ⟨u, v⟩ := (hs.hloc p).mp hm
      rcases hp with h | h
      · exact h u
      · rw [v] at h; simp at h
    · intro hm
      obtain ⟨x, hx, rfl⟩ := List.mem_map.mp hm
      obtain ⟨u, v⟩ := List.mem_filter.mp hx
      rcases hp with h | h
      · exact h (List.mem_map.mpr ⟨x.1, (posn_mem d 0 x u).1, rfl⟩)
      · rw [v] at h; simp at h
  -- local participants
  have hL : ∀ x ∈ posn d 0, q x.1.1 = true → ∃ i j, l.find x.1.1 = some i ∧ upd1 P dx t d x i = .ok j ∧ y.1.find x.1.1 = some j := by
    intro x hx hq
    obtain ⟨i, j, u1, u2, u3⟩ := a1 x (List.mem_filter.mpr ⟨hx, hq⟩)
    obtain ⟨i2, j2, v1, v2, v3⟩ := b1 x.1.1 (memloc x hx hq)
    obtain ⟨i3, b, w1, w2, w3⟩ := c1 x hx hq
    simp only [id] at v1 v3
    rw [u3] at v1
    have e5 := Option.some.inj v1
    have e6 := Res.ok.inj v2
    rw [v3] at w1
    have e7 := Option.some.inj w1
    refine ⟨i, _, u1, ?_, w3⟩
    unfold upd1
    rw [u2, Res.bind_ok, w2, Res.bind_ok, ← e7, ← e6, ← e5]
    have : rowOf G x.1.1 = frow P d x.1 := hG x.1 (posn_mem d 0 x hx).1
    rw [this]
  -- remote participants
  have hR : ∀ x ∈ posn d 0, q x.1.1 = false → ∃ i j, rm.find x.1.1 = some i ∧ upd1 P dx t d x i = .ok j ∧ rm1.find x.1.1 = some j := by
    intro x hx hq
    have hxd := (posn_mem d 0 x hx).1
    obtain ⟨b, w1, w2⟩ := c3 x hx hq
    obtain ⟨i, j, u1, u2, u3⟩ := r1 (x.1.1, b) ((SMap.find_eq_some hy2 _ _).mp w2)
    obtain ⟨i', s1, s2⟩ := hs.stored x.1 hxd hq
    simp only at u1 u3
    rw [s1] at u1
    have e5 := Option.some.inj u1
    subst e5
    refine ⟨i', j, s1, ?_, u3⟩
    unfold remote1 at u2
    rw [find_pick, if_pos ((hs.hrem x.1.1).mpr ⟨List.mem_map.mpr ⟨x.1, hxd, rfl⟩, hq⟩), s2] at u2
    simp only [Res.bind_ok] at u2
    have hbS : b.Sigma = blk P x := by
      rcases correct_cases x.1.2 (seg dx x) (blk P x) with ⟨b', hb', hS, -⟩ | hb'
      · rw [w1] at hb'; rw [Res.ok.inj hb']; exact hS
      · rw [w1] at hb'; simp at hb'
    rw [hbS] at u2
    obtain ⟨k, k1, k2⟩ := Hdl.bind_eq_ok u2
    unfold upd1
    have : rowOf G x.1.1 = frow P d x.1 := hG x.1 hxd
    rw [k1, Res.bind_ok, w1, Res.bind_ok, ← this]
    exact k2
  have hne : d ≠ [] := hs.ne
  have hall : ∀ x ∈ posn d 0, ∃ i j, h.find x.1.1 = some i ∧ upd1 P dx t d x i = .ok j := by
    intro x hx
    have hxd := (posn_mem d 0 x hx).1
    cases hq : q x.1.1 with
    | true =>
      obtain ⟨i, j, u1, u2, -⟩ := hL x hx hq
      exact ⟨i, j, by rw [← (hs.left x.1 hxd hq).1, u1], u2⟩
    | false =>
      obtain ⟨i, j, u1, u2, -⟩ := hR x hx hq
      exact ⟨i, j, by rw [← hs.right x.1 hxd hq, u1], u2⟩
  obtain ⟨h', eh⟩ := commit_ex hP hx d hs.sorted hs.unfixed hN hne hall
  obtain ⟨k1, k2⟩ := commit_ok hP hx d hs.sorted hs.unfixed hN eh
  refine ⟨h', eh, ?_, ?_, ?_, ?_, k2⟩
  · intro p hp hq
    obtain ⟨e, he, rfl⟩ := List.mem_map.mp hp
    obtain ⟨x, hx, rfl⟩ := mem_posn d 0 e he
    obtain ⟨i, j, u1, u2, u3⟩ := hL x hx hq
    obtain ⟨i', j', v1, v2, v3⟩ := k1 x hx
    rw [← (hs.left x.1 he hq).1, u1] at v1
    rw [← Option.some.inj v1, u2] at v2
    rw [u3, v3, Res.ok.inj v2]
  · intro p hp
    rw [c2 p hp, b2 p (notloc p hp).1, a2 p (notloc p hp).2]
  · intro p hp hq
    obtain ⟨e, he, rfl⟩ := List.mem_map.mp hp
    obtain ⟨x, hx, rfl⟩ := mem_posn d 0 e he
    obtain ⟨i, j, u1, u2, u3⟩ := hR x hx hq
    obtain ⟨i', j', v1, v2, v3⟩ := k1 x hx
    rw [← hs.right x.1 he hq, u1] at v1
    rw [← Option.some.inj v1, u2] at v2
    rw [u3, v3, Res.ok.inj v2]
  · intro p hp
    by_cases hm : p ∈ y.2.map (·.1)
    · obtain ⟨e, he, rfl⟩ := List.mem_map.mp hm
      have hf : SMap.find y.2 e.1 = some e.2 := (SMap.find_eq_some hy2 e.1 e.2).mpr he
      rw [c4 e.1 hp] at hf
      obtain ⟨v1, v2⟩ := hs.hrb (e.1, e.2) (SMap.mem_of_find hf)
      have hp' : e.1 ∉ d.map (·.1) := hp.resolve_right (fun h => by simp only at v1; rw [h] at v1; simp at v1)
      obtain ⟨i, j, u1, u2, u3⟩ := r1 e he
      obtain ⟨i', w1, w2⟩ := v2 hp'
      simp only at w1 w2
      rw [u1] at w1
      rw [← Option.some.inj w1] at w2
      unfold remote1 at u2
      rw [find_pick, if_neg (fun h => hp' ((hs.hrem e.1).mp h).1)] at u2
      simp only at u2
      rw [u3, u1, ← Res.ok.inj u2, w2]
    · exact r2 p hm

/-- The inter-agent update goes through whenever the update of one handler does. -/
theorem interCommit_ex (hP : P.Shape N N) (hx : dx.Shape N 1) (hN : total d ≤ N) (hs : Sides d rb remote loc t q l rm h)
    {h' : Hdl} (hc : Hdl.commit h d P dx t = .ok h') : ∃ y, interCommit P dx t d rb remote loc l rm = .ok y := by
  have hnd := Hdl.Sorted.nodup hs.sorted
  obtain ⟨G, eG, hG, hG2⟩ := splitL_row hP d hs.sorted hs.ne hN
  obtain ⟨k1, -⟩ := commit_ok hP hx d hs.sorted hs.unfixed hN hc
  have hnf : (((posn d 0).filter (fun x => q x.1.1)).map (fun x => x.1.1)).Nodup :=
    ((List.filter_sublist (p := fun x => q x.1.1)).map _).nodup (posn_nodup hs.sorted 0)
  have parts : ∀ x ∈ posn d 0, ∃ i j b, h.find x.1.1 = some i ∧ i.applyCorrectionSigma t x.1.2.Sigma (blk P x) = .ok j ∧
      x.1.2.correct (seg dx x) (blk P x) = .ok b := by
    intro x hx
    obtain ⟨i, j, u1, u2, -⟩ := k1 x hx
    unfold upd1 at u2
    obtain ⟨k, k1, u2⟩ := Hdl.bind_eq_ok u2
    obtain ⟨b, k2, -⟩ := Hdl.bind_eq_ok u2
    exact ⟨i, k, b, u1, k1, k2⟩
  unfold interCommit
  rw [applyCorrL_upds hP d 0 l (by omega) hs.isSome]
  obtain ⟨l1, e1⟩ := upds_ex (h := l) (f := fun x i => i.applyCorrectionSigma t x.1.2.Sigma (blk P x)) _ hnf
    (fun x hx => by
      obtain ⟨u, v⟩ := List.mem_filter.mp hx
      obtain ⟨i, j, b, p1, p2, -⟩ := parts x u
      exact ⟨i, j, by rw [(hs.left x.1 (posn_mem d 0 x u).1 v).1, p1], p2⟩)
  obtain ⟨a1, a2⟩ := upds_ok _ hnf e1
  rw [e1, Res.bind_ok, eG, Res.bind_ok]
  have hlocG : ∀ I ∈ loc, ∃ e ∈ d, e.1 = I ∧ q I = true := by
    intro I hI
    obtain ⟨hI, hq⟩ := (hs.hloc I).mp hI
    obtain ⟨e, he, rfl⟩ := List.mem_map.mp hI
    exact ⟨e, he, rfl, hq⟩
  have hGl : ∀ I ∈ loc, (G.find I).isSome := by
    intro I hI
    obtain ⟨e, he, rfl, -⟩ := hlocG I hI
    rcases hs.two with h2 | h2
    · rw [hG2 h2 e he]; rfl
    · rw [h2] at hI; simp at hI
  rw [setFCCs_upds G loc hGl]
  have hloc : loc.Nodup := hs.locn
  have dom1 : ∀ p, (l1.find p).isSome = (l.find p).isSome := by
    intro p
    by_cases hp : p ∈ ((posn d 0).filter (fun x => q x.1.1)).map (fun x => x.1.1)
    · obtain ⟨x, hx, rfl⟩ := List.mem_map.mp hp
      obtain ⟨i, j, u1, -, u3⟩ := a1 x hx
      rw [u1, u3]; rfl
    · rw [a2 p hp]
  obtain ⟨l2, e2⟩ := upds_ex (key := id) (h := l1) (f := fun I i => .ok (setRow t (rowOf G I) i)) loc (by rw [List.map_id]; exact hloc)
    (fun I hI => by
      obtain ⟨e, he, rfl, hq⟩ := hlocG I hI
      obtain ⟨i, hi⟩ := Option.isSome_iff_exists.mp (show (l1.find e.1).isSome by rw [dom1]; exact (hs.left e he hq).2)
      exact ⟨i, _, hi, rfl⟩)
  obtain ⟨b1, b2⟩ := upds_ok (key := id) loc (by rw [List.map_id]; exact hloc) e2
  rw [List.map_id] at b2
  rw [e2, Res.bind_ok]
  have dom2 : ∀ p, (l2.find p).isSome = (l.find p).isSome := by
    intro p
    by_cases hp : p ∈ loc
    · obtain ⟨i, j, u1, -, u3⟩ := b1 p hp
      simp only [id] at u1 u3
      rw [← dom1 p, u1, u3]; rfl
    · rw [b2 p hp, dom1]
  obtain ⟨y, e3⟩ := correctL_ex (t := t) hP hx d hs.unfixed 0 l2 rb (by omega)
    (fun x hx => by obtain ⟨i, j, b, -, -, p3⟩ := parts x hx; exact ⟨b, p3⟩)
  obtain ⟨c1, c2, c3, c4, c5⟩ := correctL_ok hP hx d hnd hs.unfixed 0 l2 rb y (by omega) (fun e he => by rw [dom2]; exact hs.isSome e he) e3
  rw [e3, Res.bind_ok]
  have hrbs : rb.Sorted := hs.rbs
  have hy2 := c5 hrbs
  rw [remoteSet_upds]
  have hrem : ∀ e ∈ y.2, ∃ i j, rm.find e.1 = some i ∧ remote1 t (pick G remote) e i = .ok j := by
    intro e he
    have hf : SMap.find y.2 e.1 = some e.2 := (SMap.find_eq_some hy2 e.1 e.2).mpr he
    by_cases hp : e.1 ∉ d.map (·.1) ∨ q e.1 = true
    · rw [c4 e.1 hp] at hf
      obtain ⟨v1, v2⟩ := hs.hrb (e.1, e.2) (SMap.mem_of_find hf)
      have hp' : e.1 ∉ d.map (·.1) := hp.resolve_right (fun h => by simp only at v1; rw [h] at v1; simp at v1)
      obtain ⟨i, w1, -⟩ := v2 hp'
      refine ⟨i, i.setBelief e.2 t, w1, ?_⟩
      unfold remote1
      rw [find_pick, if_neg (fun h => hp' ((hs.hrem e.1).mp h).1)]
    · push Not at hp
      have hq : q e.1 = false := by simpa using hp.2
      obtain ⟨e', he', hk⟩ := List.mem_map.mp hp.1
      obtain ⟨x, hx, rfl⟩ := mem_posn d 0 e' he'
      rw [← hk] at hq hf
      obtain ⟨b, w1, w2⟩ := c3 x hx hq
      rw [hf] at w2
      have hb := Option.some.inj w2
      obtain ⟨i, s1, s2⟩ := hs.stored x.1 he' hq
      obtain ⟨i', j, b', p1, p2, p3⟩ := parts x hx
      rw [← hs.right x.1 he' hq, s1] at p1
      have := Option.some.inj p1
      subst this
      have hbS : e.2.Sigma = blk P x := by
        rw [hb]
        rcases correct_cases x.1.2 (seg dx x) (blk P x) with ⟨b', hb', hS, -⟩ | hb'
        · rw [w1] at hb'; rw [Res.ok.inj hb']; exact hS
        · rw [w1] at hb'; simp at hb'
      refine ⟨i, (setRow t (rowOf G e.1) j).setBelief e.2 t, by rw [← hk]; exact s1, ?_⟩
      unfold remote1
      rw [find_pick, if_pos ((hs.hrem e.1).mpr ⟨hp.1, by rw [← hk]; exact hq⟩), s2]
      simp only [Res.bind_ok]
      rw [hbS, p2, Res.bind_ok]
  obtain ⟨rm1, e4⟩ := upds_ex (h := rm) y.2 (Hdl.Sorted.nodup hy2) hrem
  exact ⟨_, by rw [e4, Res.bind_ok]⟩
end

end Collab
end Ikf
