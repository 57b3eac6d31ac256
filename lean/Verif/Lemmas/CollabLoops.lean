import Verif.Lemmas.Collab

/-!
# The loops of an accepted joint update, instance by instance
-/

namespace Ikf
open Mat
namespace Collab

/-- A loop that changes one instance after the other. -/
def upds {X : Type _} (key : X → ℕ) (f : X → Inst → Res Inst) : List X → Hdl → Res Hdl
  | [], h => .ok h
  | x :: r, h => do
    let i ← Hdl.get h (key x)
    let j ← f x i
    upds key f r (h.set (key x) j)

section
variable {X : Type _} {key : X → ℕ} {f : X → Inst → Res Inst}

theorem upds_ok (xs : List X) (hn : (xs.map key).Nodup) : ∀ {h h' : Hdl}, upds key f xs h = .ok h' →
    (∀ x ∈ xs, ∃ i j, h.find (key x) = some i ∧ f x i = .ok j ∧ h'.find (key x) = some j) ∧
      ∀ p, p ∉ xs.map key → h'.find p = h.find p := by
  induction xs with
  | nil => intro h h' e; rw [upds] at e; rw [← Res.ok.inj e]; simp
  | cons x r ih =>
    intro h h' e
    rw [List.map_cons, List.nodup_cons] at hn
    rw [upds] at e
    obtain ⟨i, hi, e⟩ := Hdl.bind_eq_ok e
    obtain ⟨j, hj, e⟩ := Hdl.bind_eq_ok e
    obtain ⟨h1, h2⟩ := ih hn.2 e
    have hi' := Hdl.get_eq_ok hi
    refine ⟨?_, ?_⟩
    · intro y hy
      rcases List.mem_cons.mp hy with rfl | hy
      · refine ⟨i, j, hi', hj, ?_⟩
        rw [h2 _ hn.1, SMap.find_set_self]
      · obtain ⟨i', j', a1, a2, a3⟩ := h1 y hy
        refine ⟨i', j', ?_, a2, a3⟩
        rw [SMap.find_set_ne] at a1
        · exact a1
        · intro hk; exact hn.1 (List.mem_map.mpr ⟨y, hy, hk.symm⟩)
    · intro p hp
      rw [List.map_cons, List.mem_cons, not_or] at hp
      rw [h2 p hp.2, SMap.find_set_ne _ (fun e => hp.1 e.symm)]

theorem upds_ex (xs : List X) (hn : (xs.map key).Nodup) : ∀ {h : Hdl},
    (∀ x ∈ xs, ∃ i j, h.find (key x) = some i ∧ f x i = .ok j) → ∃ h', upds key f xs h = .ok h' := by
  induction xs with
  | nil => intro h _; exact ⟨h, rfl⟩
  | cons x r ih =>
    intro h hx
    rw [List.map_cons, List.nodup_cons] at hn
    obtain ⟨i, j, hi, hj⟩ := hx x List.mem_cons_self
    have hr : ∀ y ∈ r, ∃ i' j', SMap.find (h.set (key x) j) (key y) = some i' ∧ f y i' = .ok j' := by
      intro y hy
      obtain ⟨i', j', a1, a2⟩ := hx y (List.mem_cons_of_mem _ hy)
      refine ⟨i', j', ?_, a2⟩
      rw [SMap.find_set_ne _ (fun hk => hn.1 (List.mem_map.mpr ⟨y, hy, hk.symm⟩)), a1]
    obtain ⟨h', e⟩ := ih hn.2 hr
    refine ⟨h', ?_⟩
    rw [upds, Hdl.get_ok hi, Res.bind_ok, hj, Res.bind_ok, e]
end

/-- The participants with the first row of their block. -/
def posn : SMap Belief → ℕ → List ((ℕ × Belief) × ℕ)
  | [], _ => []
  | e :: r, s => (e, s) :: posn r (s + e.2.dim)

/-- Number of rows of the stack. -/
def total : SMap Belief → ℕ
  | [] => 0
  | e :: r => e.2.dim + total r

theorem posn_keys (d : SMap Belief) : ∀ s, (posn d s).map (fun x => x.1.1) = d.map (·.1) := by
  induction d with
  | nil => intro _; rfl
  | cons e r ih => intro s; rw [posn, List.map_cons, List.map_cons, ih]

theorem posn_mem (d : SMap Belief) : ∀ s, ∀ x ∈ posn d s, x.1 ∈ d ∧ s ≤ x.2 ∧ x.2 + x.1.2.dim ≤ s + total d := by
  induction d with
  | nil => intro s x hx; simp [posn] at hx
  | cons e r ih =>
    intro s x hx
    rw [posn] at hx
    rcases List.mem_cons.mp hx with rfl | hx
    · exact ⟨List.mem_cons_self, le_refl _, by simp only [total]; omega⟩
    · obtain ⟨a, b, c⟩ := ih _ x hx
      exact ⟨List.mem_cons_of_mem _ a, by omega, by simp only [total]; omega⟩

theorem mem_posn (d : SMap Belief) : ∀ s, ∀ e ∈ d, ∃ x ∈ posn d s, x.1 = e := by
  induction d with
  | nil => intro s e he; simp at he
  | cons a r ih =>
    intro s e he
    rw [posn]
    rcases List.mem_cons.mp he with rfl | he
    · exact ⟨_, List.mem_cons_self, rfl⟩
    · obtain ⟨x, hx, hxe⟩ := ih (s + a.2.dim) e he
      exact ⟨x, List.mem_cons_of_mem _ hx, hxe⟩

/-- Block of the posterior for one participant. -/
def blk (P : Mat) (x : (ℕ × Belief) × ℕ) : Mat := P.block x.2 x.2 x.1.2.dim x.1.2.dim
/-- Its part of the correction. -/
def seg (dx : Mat) (x : (ℕ × Belief) × ℕ) : Mat := dx.block x.2 0 x.1.2.dim 1

variable {P dx : Mat} {N : ℕ} {t : Int}

theorem applyCorrections_upds (hP : P.Shape N N) (d : SMap Belief) (hu : ∀ e ∈ d, e.2.fixed = false) : ∀ s h, s + total d ≤ N →
    Hdl.applyCorrections P t d s h =
      upds (fun x => x.1.1) (fun x i => i.applyCorrectionSigma t x.1.2.Sigma (blk P x)) (posn d s) h := by
  induction d with
  | nil => intro s h _; rfl
  | cons e r ih =>
    intro s h hs
    simp only [total] at hs
    rw [Hdl.applyCorrections, posn, upds, hu e List.mem_cons_self, if_pos (by rfl),
      blockC_ok (by rw [hP.1]; omega) (by rw [hP.2]; omega), Res.bind_ok]
    simp only [ih (fun e he => hu e (List.mem_cons_of_mem _ he)) _ _ (show s + e.2.dim + total r ≤ N by omega)]
    rfl

theorem correct_cases (b : Belief) (v B : Mat) : (∃ b', b.correct v B = .ok b' ∧ b'.Sigma = B ∧ b'.fixed = b.fixed) ∨ b.correct v B = .ub := by
  unfold Belief.correct Mat.addC
  split
  · exact Or.inl ⟨_, rfl, rfl, rfl⟩
  · exact Or.inr rfl

theorem correctBeliefs_upds (hP : P.Shape N N) (hx : dx.Shape N 1) (d : SMap Belief) (hu : ∀ e ∈ d, e.2.fixed = false) :
    ∀ s h, s + total d ≤ N →
    Hdl.correctBeliefs P dx t d s h =
      upds (fun x => x.1.1) (fun x i => do let b ← x.1.2.correct (seg dx x) (blk P x); .ok (i.setBelief b t)) (posn d s) h := by
  induction d with
  | nil => intro s h _; rfl
  | cons e r ih =>
    intro s h hs
    simp only [total] at hs
    rw [Hdl.correctBeliefs, posn, upds, hu e List.mem_cons_self, if_pos (by rfl),
      blockC_ok (by rw [hP.1]; omega) (by rw [hP.2]; omega), Res.bind_ok,
      blockC_ok (by rw [hx.1]; omega) (by rw [hx.2]), Res.bind_ok]
    simp only [ih (fun e he => hu e (List.mem_cons_of_mem _ he)) _ _ (show s + e.2.dim + total r ≤ N by omega)]
    show (e.2.correct (seg dx (e, s)) (blk P (e, s)) >>= _) = _
    rcases correct_cases e.2 (seg dx (e, s)) (blk P (e, s)) with ⟨b', hb, -⟩ | hb
    · rw [hb, Res.bind_ok]
      cases Hdl.get h e.1 <;> rfl
    · rw [hb]
      unfold Hdl.get
      cases h.find e.1 <;> rfl

/-! ## Factor rows -/

/-- `Sigma_IJ` of one instance with the later ones. -/
def cells (P : Mat) (s di : ℕ) : List (ℕ × ℕ) → ℕ → SMap Mat
  | [], _ => []
  | x :: r, col => (x.1, P.block s col di x.2) :: cells P s di r (col + x.2)

/-- The factors of instance `p` (size `dp`) after the split of the posterior `P`: identities towards the smaller IDs,
the blocks of `P` towards the larger ones. -/
def rowS (P : Mat) : List (ℕ × ℕ) → ℕ → ℕ → ℕ → SMap Mat
  | [], _, _, _ => []
  | x :: r, s, p, dp => if x.1 = p then cells P s x.2 r (s + x.2) else (x.1, one dp) :: rowS P r (s + x.2) p dp

def IdSorted (l : List (ℕ × ℕ)) : Prop := l.Pairwise (fun a b => a.1 < b.1)

theorem setRow_append (t : Int) (r1 r2 : SMap Mat) (i : Inst) : setRow t (r1 ++ r2) i = setRow t r2 (setRow t r1 i) := by
  unfold setRow; rw [List.foldl_append]

theorem setSigma_find {h : Hdl} {I J : ℕ} (hIJ : I < J) (S : Mat) (t : Int) (hI : (h.find I).isSome) (hJ : (h.find J).isSome) :
    ∃ h', Hdl.setSigma h I J S t = .ok h' ∧ h'.find I = (h.find I).map (fun i => i.setCCF t J S) ∧
      h'.find J = (h.find J).map (fun j => j.setCCF t I (one S.cols)) ∧ ∀ p, p ≠ I → p ≠ J → h'.find p = h.find p := by
  obtain ⟨i, hi⟩ := Option.isSome_iff_exists.mp hI
  obtain ⟨j, hj⟩ := Option.isSome_iff_exists.mp hJ
  unfold Hdl.setSigma
  rw [if_pos hIJ, Hdl.get_ok hi, Res.bind_ok]
  dsimp only
  have hj' : SMap.find (SMap.set h I (i.setCCF t J S)) J = some j := by rw [SMap.find_set_ne _ (by omega), hj]
  rw [Hdl.get_ok hj', Res.bind_ok]
  refine ⟨_, rfl, ?_, ?_, ?_⟩
  · rw [SMap.find_set_ne _ (by omega), SMap.find_set_self, hi]; rfl
  · rw [SMap.find_set_self, hj]; rfl
  · intro p h1 h2
    rw [SMap.find_set_ne _ (fun e => h2 e.symm), SMap.find_set_ne _ (fun e => h1 e.symm)]

theorem splitRow_find (hP : P.Shape N N) (t : Int) (I di s : ℕ) (hs : s + di ≤ N) (r : List (ℕ × ℕ)) (hr : IdSorted r)
    (hI : ∀ x ∈ r, I < x.1) : ∀ (col : ℕ) (h : Hdl), col + tot r ≤ N → (h.find I).isSome → (∀ x ∈ r, (h.find x.1).isSome) →
    ∃ h', Hdl.splitRow P t I di s r col h = .ok h' ∧ h'.find I = (h.find I).map (setRow t (cells P s di r col)) ∧
      (∀ x ∈ r, h'.find x.1 = (h.find x.1).map (fun j => j.setCCF t I (one x.2))) ∧
      ∀ p, p ≠ I → p ∉ r.map (·.1) → h'.find p = h.find p := by
  induction r with
  | nil =>
    intro col h _ hi _
    refine ⟨h, rfl, ?_, by simp, fun _ _ _ => rfl⟩
    obtain ⟨i, hi⟩ := Option.isSome_iff_exists.mp hi
    rw [hi]; rfl
  | cons x r ih =>
    intro col h hc hi hx
    rw [IdSorted, List.pairwise_cons] at hr
    simp only [tot] at hc
    have hIx := hI x List.mem_cons_self
    rw [Hdl.splitRow, blockC_ok (by rw [hP.1]; omega) (by rw [hP.2]; omega), Res.bind_ok]
    obtain ⟨h1, e1, f1, f2, f3⟩ := setSigma_find hIx (P.block s col di x.2) t hi (hx x List.mem_cons_self)
    rw [e1, Res.bind_ok]
    have hne : ∀ y ∈ r, y.1 ≠ I ∧ y.1 ≠ x.1 := fun y hy => ⟨by have := hI y (List.mem_cons_of_mem _ hy); omega, by have := hr.1 y hy; omega⟩
    obtain ⟨h', e', g1, g2, g3⟩ := ih hr.2 (fun y hy => hI y (List.mem_cons_of_mem _ hy)) (col + x.2) h1 (by omega)
      (by rw [f1, Option.isSome_map]; exact hi)
      (fun y hy => by rw [f3 y.1 (hne y hy).1 (hne y hy).2]; exact hx y (List.mem_cons_of_mem _ hy))
    refine ⟨h', e', ?_, ?_, ?_⟩
    · rw [g1, f1, Option.map_map]; rfl
    · intro y hy
      rcases List.mem_cons.mp hy with rfl | hy
      · rw [g3 y.1 (by omega) (fun hm => by obtain ⟨z, hz, hzy⟩ := List.mem_map.mp hm; have := hr.1 z hz; omega), f2]; rfl
      · rw [g2 y hy, f3 y.1 (hne y hy).1 (hne y hy).2]
    · intro p h1 h2
      rw [List.map_cons, List.mem_cons, not_or] at h2
      rw [g3 p h1 h2.2, f3 p h1 h2.1]

theorem tot_cons (x : ℕ × ℕ) (r) : tot (x :: r) = x.2 + tot r := rfl

theorem splitRows_find (hP : P.Shape N N) (t : Int) (l : List (ℕ × ℕ)) (hl : IdSorted l) : ∀ (s : ℕ) (h : Hdl), s + tot l ≤ N →
    (∀ x ∈ l, (h.find x.1).isSome) →
    ∃ h', Hdl.splitRows P t l s s h = .ok h' ∧
      (∀ x ∈ l, h'.find x.1 = (h.find x.1).map (setRow t (rowS P l s x.1 x.2))) ∧
      ∀ p, p ∉ l.map (·.1) → h'.find p = h.find p := by
  induction l with
  | nil => intro s h _ _; exact ⟨h, rfl, by simp, fun _ _ => rfl⟩
  | cons x r ih =>
    intro s h hs hx
    rw [IdSorted, List.pairwise_cons] at hl
    rw [tot_cons] at hs
    obtain ⟨h1, e1, f1, f2, f3⟩ := splitRow_find hP t x.1 x.2 s (by omega) r hl.2 hl.1 (s + x.2) h (by omega) (hx x List.mem_cons_self)
      (fun y hy => hx y (List.mem_cons_of_mem _ hy))
    obtain ⟨h', e', g1, g2⟩ := ih hl.2 (s + x.2) h1 (by omega)
      (fun y hy => by rw [f2 y hy, Option.isSome_map]; exact hx y (List.mem_cons_of_mem _ hy))
    refine ⟨h', ?_, ?_, ?_⟩
    · rw [Hdl.splitRows, e1, Res.bind_ok, e']
    · intro y hy
      rcases List.mem_cons.mp hy with rfl | hy
      · rw [g2 y.1 (fun hm => by obtain ⟨z, hz, hzy⟩ := List.mem_map.mp hm; have := hl.1 z hz; omega), f1, rowS, if_pos rfl]
      · have := hl.1 y hy
        rw [g1 y hy, f2 y hy, rowS, if_neg (by omega), Option.map_map]
        rfl
    · intro p hp
      rw [List.map_cons, List.mem_cons, not_or] at hp
      rw [g2 p hp.2, f3 p hp.1 hp.2]

/-- The row of instance `p` in a dictionary of factors. -/
def rowOf (F : SMap (SMap Mat)) (p : ℕ) : SMap Mat := (F.find p).getD []

theorem rowOf_put (F : SMap (SMap Mat)) (I J : ℕ) (M : Mat) (p : ℕ) :
    rowOf (putFCC F I J M) p = if I = p then (rowOf F p).emplace J M else rowOf F p := by
  unfold rowOf putFCC
  rw [SMap.find_set]
  by_cases h : I = p
  · subst h; rw [if_pos rfl, if_pos rfl]; rfl
  · rw [if_neg h, if_neg h]

theorem splitRowL_find (hP : P.Shape N N) (I di s : ℕ) (hs : s + di ≤ N) (r : List (ℕ × ℕ)) (hr : IdSorted r)
    (hI : ∀ x ∈ r, I < x.1) : ∀ (col : ℕ) (F : SMap (SMap Mat)), col + tot r ≤ N → (∀ e ∈ rowOf F I, ∀ x ∈ r, e.1 < x.1) →
    (∀ x ∈ r, ∀ e ∈ rowOf F x.1, e.1 < I) →
    ∃ F', splitRowL P I di s r col F = .ok F' ∧ rowOf F' I = rowOf F I ++ cells P s di r col ∧
      (∀ x ∈ r, rowOf F' x.1 = rowOf F x.1 ++ [(I, one x.2)]) ∧
      ∀ p, p ≠ I → p ∉ r.map (·.1) → rowOf F' p = rowOf F p := by
  induction r with
  | nil => intro col F _ _ _; exact ⟨F, rfl, by simp [cells], by simp, fun _ _ _ => rfl⟩
  | cons x r ih =>
    intro col F hc h1 h2
    rw [IdSorted, List.pairwise_cons] at hr
    simp only [tot] at hc
    have hIx := hI x List.mem_cons_self
    rw [splitRowL, blockC_ok (by rw [hP.1]; omega) (by rw [hP.2]; omega), Res.bind_ok]
    simp only [if_pos hIx]
    set F1 := putFCC (putFCC F I x.1 (P.block s col di x.2)) x.1 I (one (P.block s col di x.2).cols) with hF1
    have rI : rowOf F1 I = rowOf F I ++ [(x.1, P.block s col di x.2)] := by
      rw [hF1, rowOf_put, if_neg (by omega), rowOf_put, if_pos rfl, Hdl.emplace_snoc]
      intro e he; exact h1 e he x List.mem_cons_self
    have rx : rowOf F1 x.1 = rowOf F x.1 ++ [(I, one x.2)] := by
      rw [hF1, rowOf_put, if_pos rfl, rowOf_put, if_neg (by omega), Hdl.emplace_snoc]
      · rfl
      · intro e he; exact h2 x List.mem_cons_self e he
    have ro : ∀ p, p ≠ I → p ≠ x.1 → rowOf F1 p = rowOf F p := by
      intro p a b
      rw [hF1, rowOf_put, if_neg (fun e => b e.symm), rowOf_put, if_neg (fun e => a e.symm)]
    have hne : ∀ y ∈ r, y.1 ≠ I ∧ y.1 ≠ x.1 := fun y hy => ⟨by have := hI y (List.mem_cons_of_mem _ hy); omega, by have := hr.1 y hy; omega⟩
    obtain ⟨F', e', g1, g2, g3⟩ := ih hr.2 (fun y hy => hI y (List.mem_cons_of_mem _ hy)) (col + x.2) F1 (by omega)
      (by
        intro e he y hy
        rw [rI] at he
        rcases List.mem_append.mp he with he | he
        · exact h1 e he y (List.mem_cons_of_mem _ hy)
        · rw [List.mem_singleton] at he; rw [he]; exact hr.1 y hy)
      (by
        intro y hy e he
        rw [ro y.1 (hne y hy).1 (hne y hy).2] at he
        exact h2 y (List.mem_cons_of_mem _ hy) e he)
    refine ⟨F', e', ?_, ?_, ?_⟩
    · rw [g1, rI, List.append_assoc]; rfl
    · intro y hy
      rcases List.mem_cons.mp hy with rfl | hy
      · rw [g3 y.1 (by omega) (fun hm => by obtain ⟨z, hz, hzy⟩ := List.mem_map.mp hm; have := hr.1 z hz; omega), rx]
      · rw [g2 y hy, ro y.1 (hne y hy).1 (hne y hy).2]
    · intro p a b
      rw [List.map_cons, List.mem_cons, not_or] at b
      rw [g3 p a b.2, ro p a b.1]

theorem splitRowsL_find (hP : P.Shape N N) (l : List (ℕ × ℕ)) (hl : IdSorted l) : ∀ (s : ℕ) (F : SMap (SMap Mat)), s + tot l ≤ N →
    (∀ x ∈ l, ∀ e ∈ rowOf F x.1, ∀ y ∈ l, e.1 < y.1) →
    ∃ F', splitRowsL P l s s F = .ok F' ∧ (∀ x ∈ l, rowOf F' x.1 = rowOf F x.1 ++ rowS P l s x.1 x.2) ∧
      ∀ p, p ∉ l.map (·.1) → rowOf F' p = rowOf F p := by
  induction l with
  | nil => intro s F _ _; exact ⟨F, rfl, by simp, fun _ _ => rfl⟩
  | cons x r ih =>
    intro s F hs hF
    rw [IdSorted, List.pairwise_cons] at hl
    rw [tot_cons] at hs
    obtain ⟨F1, e1, f1, f2, f3⟩ := splitRowL_find hP x.1 x.2 s (by omega) r hl.2 hl.1 (s + x.2) F (by omega)
      (fun e he y hy => hF x List.mem_cons_self e he y (List.mem_cons_of_mem _ hy))
      (fun y hy e he => hF y (List.mem_cons_of_mem _ hy) e he x List.mem_cons_self)
    obtain ⟨F', e', g1, g2⟩ := ih hl.2 (s + x.2) F1 (by omega)
      (by
        intro y hy e he z hz
        rw [f2 y hy] at he
        rcases List.mem_append.mp he with he | he
        · exact hF y (List.mem_cons_of_mem _ hy) e he z (List.mem_cons_of_mem _ hz)
        · rw [List.mem_singleton] at he; rw [he]; exact hl.1 z hz)
    refine ⟨F', ?_, ?_, ?_⟩
    · rw [splitRowsL, e1, Res.bind_ok, e']
    · intro y hy
      rcases List.mem_cons.mp hy with rfl | hy
      · rw [g2 y.1 (fun hm => by obtain ⟨z, hz, hzy⟩ := List.mem_map.mp hm; have := hl.1 z hz; omega), f1, rowS, if_pos rfl]
      · have := hl.1 y hy
        rw [g1 y hy, f2 y hy, rowS, if_neg (by omega), List.append_assoc]
        rfl
    · intro p hp
      rw [List.map_cons, List.mem_cons, not_or] at hp
      rw [g2 p hp.2, f3 p hp.1 hp.2]

theorem rowS_ne_nil (P : Mat) (l : List (ℕ × ℕ)) (hl : IdSorted l) (h2 : 2 ≤ l.length) (s : ℕ) (x : ℕ × ℕ) (hx : x ∈ l) :
    rowS P l s x.1 x.2 ≠ [] := by
  match l, h2 with
  | a :: b :: r, _ =>
    rw [rowS]
    by_cases h : a.1 = x.1
    · rw [if_pos h, cells]; simp
    · rw [if_neg h]; simp

theorem tot_dims (d : SMap Belief) : tot (d.map fun e => (e.1, e.2.dim)) = total d := by
  induction d with
  | nil => rfl
  | cons e r ih => rw [List.map_cons, tot_cons, ih]; rfl

theorem idSorted_dims {d : SMap Belief} (hd : d.Sorted) : IdSorted (d.map fun e => (e.1, e.2.dim)) := by
  unfold IdSorted; rw [List.pairwise_map]; exact hd

/-- The factors of the participant `e`. -/
def frow (P : Mat) (d : SMap Belief) (e : ℕ × Belief) : SMap Mat := rowS P (d.map fun e => (e.1, e.2.dim)) 0 e.1 e.2.dim

/-- Dictionary of the posterior factors. -/
theorem splitL_find (hP : P.Shape N N) (d : SMap Belief) (hd : d.Sorted) (h2 : 2 ≤ d.length) (hN : total d ≤ N) :
    ∃ G, splitL P d = .ok G ∧ ∀ e ∈ d, G.find e.1 = some (frow P d e) := by
  obtain ⟨G, eG, g1, -⟩ := splitRowsL_find hP _ (idSorted_dims hd) 0 [] (by rw [tot_dims]; omega) (by intro x _ e he; simp [rowOf] at he)
  refine ⟨G, ?_, ?_⟩
  · unfold splitL
    rw [if_neg (by cases d <;> simp_all), eG]
  · intro e he
    have hm : (e.1, e.2.dim) ∈ d.map (fun e => (e.1, e.2.dim)) := List.mem_map.mpr ⟨e, he, rfl⟩
    have := g1 _ hm
    have hne := rowS_ne_nil P _ (idSorted_dims hd) (by rw [List.length_map]; exact h2) 0 _ hm
    simp only [rowOf, SMap.find_nil, Option.getD_none, List.nil_append] at this
    unfold frow
    cases hf : SMap.find G e.1 with
    | none => rw [hf] at this; exact absurd this.symm hne
    | some x => rw [hf] at this; simp only [Option.getD_some] at this; rw [this]

/-- The same without a row for the only participant. -/
theorem splitL_row (hP : P.Shape N N) (d : SMap Belief) (hd : d.Sorted) (hne : d ≠ []) (hN : total d ≤ N) :
    ∃ G, splitL P d = .ok G ∧ (∀ e ∈ d, rowOf G e.1 = frow P d e) ∧ (2 ≤ d.length → ∀ e ∈ d, G.find e.1 = some (frow P d e)) := by
  obtain ⟨G, eG, g1, -⟩ := splitRowsL_find hP _ (idSorted_dims hd) 0 [] (by rw [tot_dims]; omega) (by intro x _ e he; simp [rowOf] at he)
  have hG : splitL P d = .ok G := by
    unfold splitL
    rw [if_neg (by cases d <;> simp_all), eG]
  refine ⟨G, hG, ?_, ?_⟩
  · intro e he
    have := g1 (e.1, e.2.dim) (List.mem_map.mpr ⟨e, he, rfl⟩)
    simpa [rowOf, frow] using this
  · intro h2
    obtain ⟨G', eG', g'⟩ := splitL_find hP d hd h2 hN
    rw [hG] at eG'
    rw [Res.ok.inj eG']
    exact g'

theorem unfixed_self {d : SMap Belief} (hu : ∀ e ∈ d, e.2.fixed = false) : Hdl.unfixed d = d := by
  unfold Hdl.unfixed; rw [List.filter_eq_self]; intro e he; simp [hu e he]

/-! ## The update of one instance -/

/-- What an accepted joint update does to one participant: correction of its factors, posterior factors towards the other
participants, posterior belief. -/
noncomputable def upd1 (P dx : Mat) (t : Int) (d : SMap Belief) (x : (ℕ × Belief) × ℕ) (i : Inst) : Res Inst := do
  let j ← i.applyCorrectionSigma t x.1.2.Sigma (blk P x)
  let b ← x.1.2.correct (seg dx x) (blk P x)
  .ok ((setRow t (frow P d x.1) j).setBelief b t)

theorem bind_ok_iff {α β : Type _} {x : Res α} {f : α → Res β} {y : β} : (x >>= f) = .ok y ↔ ∃ a, x = .ok a ∧ f a = .ok y :=
  ⟨Hdl.bind_eq_ok, fun ⟨a, h1, h2⟩ => by rw [h1, Res.bind_ok, h2]⟩

theorem posn_nodup {d : SMap Belief} (hd : d.Sorted) (s : ℕ) : ((posn d s).map (fun x => x.1.1)).Nodup := by
  rw [posn_keys]; exact Hdl.Sorted.nodup hd

/-- The joint update of one handler, instance by instance. -/
theorem commit_ok (hP : P.Shape N N) (hx : dx.Shape N 1) (d : SMap Belief) (hd : d.Sorted) (hu : ∀ e ∈ d, e.2.fixed = false)
    (hN : total d ≤ N) {h h' : Hdl} (hc : Hdl.commit h d P dx t = .ok h') :
    (∀ x ∈ posn d 0, ∃ i j, h.find x.1.1 = some i ∧ upd1 P dx t d x i = .ok j ∧ h'.find x.1.1 = some j) ∧
      ∀ p, p ∉ d.map (·.1) → h'.find p = h.find p := by
  unfold Hdl.commit at hc
  obtain ⟨h1, e1, hc⟩ := Hdl.bind_eq_ok hc
  obtain ⟨h2, e2, hc⟩ := Hdl.bind_eq_ok hc
  rw [applyCorrections_upds hP d hu 0 h (by omega)] at e1
  rw [correctBeliefs_upds hP hx d hu 0 h2 (by omega)] at hc
  obtain ⟨a1, a2⟩ := upds_ok _ (posn_nodup hd 0) e1
  obtain ⟨c1, c2⟩ := upds_ok _ (posn_nodup hd 0) hc
  rw [posn_keys] at a2 c2
  have hex : ∀ x ∈ d.map (fun e => (e.1, e.2.dim)), (h1.find x.1).isSome := by
    intro x hx
    obtain ⟨e, he, rfl⟩ := List.mem_map.mp hx
    obtain ⟨y, hy, hye⟩ := mem_posn d 0 e he
    obtain ⟨i, j, -, -, hj⟩ := a1 y hy
    rw [hye] at hj; rw [hj]; rfl
  obtain ⟨h2', e2', b1, b2⟩ := splitRows_find hP t _ (idSorted_dims hd) 0 h1 (by rw [tot_dims]; omega) hex
  unfold Hdl.splitRightUpper at e2
  rw [unfixed_self hu] at e2
  dsimp only at e2
  split at e2
  · simp at e2
  · rw [e2'] at e2
    have := Res.ok.inj e2
    subst this
    refine ⟨?_, ?_⟩
    · intro x hx
      obtain ⟨i, j, hi, hj, hj'⟩ := a1 x hx
      obtain ⟨k, m, hk, hm, hm'⟩ := c1 x hx
      have hxd := (posn_mem d 0 x hx).1
      rw [b1 (x.1.1, x.1.2.dim) (List.mem_map.mpr ⟨x.1, hxd, rfl⟩), hj'] at hk
      have hk := Option.some.inj hk
      refine ⟨i, m, hi, ?_, hm'⟩
      unfold upd1
      rw [hj, Res.bind_ok]
      obtain ⟨b, hb, hm⟩ := Hdl.bind_eq_ok hm
      rw [hb, Res.bind_ok, ← hm, ← hk]
      rfl
    · intro p hp
      rw [c2 p hp, b2 p (by rw [List.map_map]; exact hp), a2 p hp]

theorem commit_ex (hP : P.Shape N N) (hx : dx.Shape N 1) (d : SMap Belief) (hd : d.Sorted) (hu : ∀ e ∈ d, e.2.fixed = false)
    (hN : total d ≤ N) (hne : d ≠ []) {h : Hdl} (hf : ∀ x ∈ posn d 0, ∃ i j, h.find x.1.1 = some i ∧ upd1 P dx t d x i = .ok j) :
    ∃ h', Hdl.commit h d P dx t = .ok h' := by
  unfold Hdl.commit
  rw [applyCorrections_upds hP d hu 0 h (by omega)]
  obtain ⟨h1, e1⟩ := upds_ex (f := fun x i => i.applyCorrectionSigma t x.1.2.Sigma (blk P x)) _ (posn_nodup hd 0)
    (fun x hx => by
      obtain ⟨i, j, hi, hj⟩ := hf x hx
      unfold upd1 at hj
      obtain ⟨k, hk, -⟩ := Hdl.bind_eq_ok hj
      exact ⟨i, k, hi, hk⟩)
  obtain ⟨a1, a2⟩ := upds_ok _ (posn_nodup hd 0) e1
  rw [e1, Res.bind_ok]
  have hex : ∀ x ∈ d.map (fun e => (e.1, e.2.dim)), (h1.find x.1).isSome := by
    intro x hx
    obtain ⟨e, he, rfl⟩ := List.mem_map.mp hx
    obtain ⟨y, hy, hye⟩ := mem_posn d 0 e he
    obtain ⟨i, j, -, -, hj⟩ := a1 y hy
    rw [hye] at hj; rw [hj]; rfl
  obtain ⟨h2, e2, b1, b2⟩ := splitRows_find hP t _ (idSorted_dims hd) 0 h1 (by rw [tot_dims]; omega) hex
  have e2' : Hdl.splitRightUpper P d t h1 = .ok h2 := by
    unfold Hdl.splitRightUpper
    rw [unfixed_self hu]
    dsimp only
    rw [if_neg (by cases d <;> simp_all), e2]
  rw [e2', Res.bind_ok, correctBeliefs_upds hP hx d hu 0 h2 (by omega)]
  refine upds_ex _ (posn_nodup hd 0) fun x hx => ?_
  obtain ⟨i, j, hi, hj⟩ := hf x hx
  unfold upd1 at hj
  obtain ⟨k, hk, hj⟩ := Hdl.bind_eq_ok hj
  obtain ⟨b, hb, hj⟩ := Hdl.bind_eq_ok hj
  obtain ⟨i', j', a3, a4, a5⟩ := a1 x hx
  refine ⟨setRow t (rowS P (d.map fun e => (e.1, e.2.dim)) 0 x.1.1 x.1.2.dim) j', _, ?_, by rw [hb]; rfl⟩
  · rw [b1 (x.1.1, x.1.2.dim) (List.mem_map.mpr ⟨x.1, (posn_mem d 0 x hx).1, rfl⟩), a5]; rfl

end Collab
end Ikf
