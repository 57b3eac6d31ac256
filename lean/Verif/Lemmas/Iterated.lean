import Verif.Model.Iterated
import Verif.Lemmas.Central
import Verif.Lemmas.Frame

/-! # Lemmas for the iterated joint observation -/

namespace Ikf
open Mat

/-- Mapping the value of a result. -/
def Res.mapv {α β : Type _} (f : α → β) : Res α → Res β
  | .ok a => .ok (f a)
  | .throws => .throws
  | .ub => .ub

theorem Res.mapv_bind {α β γ : Type _} (f : β → γ) (x : Res α) (k : α → Res β) :
    Res.mapv f (x >>= k) = (x >>= fun a => Res.mapv f (k a)) := by
  cases x <;> rfl

theorem Res.bind_mapv {α β γ : Type _} (f : α → β) (x : Res α) (k : β → Res γ) :
    ((Res.mapv f x) >>= k) = (x >>= fun a => k (f a)) := by
  cases x <;> rfl

namespace Hdl

/-! ## Operations that do not look at the belief histories -/

/-- The belief history of an instance replaced. -/
def _root_.Ikf.Inst.withBel (i : Inst) (b : Buf Belief) : Inst := { i with bel := b }

/-- The belief histories changed by `g`. -/
def mapB (g : ℕ → Buf Belief → Buf Belief) (h : Hdl) : Hdl := h.map (fun e => (e.1, e.2.withBel (g e.1 e.2.bel)))

variable {g : ℕ → Buf Belief → Buf Belief}

theorem mapB_cons (e : ℕ × Inst) (r : Hdl) : mapB g (e :: r) = (e.1, e.2.withBel (g e.1 e.2.bel)) :: mapB g r := rfl

theorem find_mapB (h : Hdl) (k : ℕ) : (mapB g h).find k = (h.find k).map (fun i => (i.withBel (g k i.bel))) := by
  induction h with
  | nil => rfl
  | cons e r ih =>
    show SMap.find ((e.1, _) :: mapB g r) k = _
    rw [SMap.find_cons, SMap.find_cons]
    by_cases hk : e.1 = k
    · subst hk; rw [if_pos rfl, if_pos rfl]; rfl
    · rw [if_neg hk, if_neg hk, ih]

theorem get_mapB (h : Hdl) (k : ℕ) : get (mapB g h) k = (get h k).mapv (fun i => (i.withBel (g k i.bel))) := by
  unfold get
  rw [find_mapB]
  cases SMap.find h k <;> rfl

theorem set_mapB (h : Hdl) (k : ℕ) (i : Inst) : (mapB g h).set k (i.withBel (g k i.bel)) = mapB g (h.set k i) := by
  induction h with
  | nil => rfl
  | cons e r ih =>
    show SMap.set ((e.1, _) :: mapB g r) k _ = mapB g (SMap.set (e :: r) k i)
    rw [SMap.set, SMap.set]
    dsimp only
    split
    · rfl
    · split
      · rfl
      · show _ = (e.1, _) :: mapB g (SMap.set r k i)
        rw [← ih]

theorem setCCF_bel' (i : Inst) (b : Buf Belief) (t : Int) (J : ℕ) (M : Mat) :
    (i.withBel (b)).setCCF t J M = ((i.setCCF t J M).withBel (b)) := by
  unfold Inst.setCCF Inst.withBel
  dsimp only
  cases SMap.find i.ccf J <;> rfl

theorem applyCorrectionSigma_bel' (i : Inst) (b : Buf Belief) (t : Int) (A B : Mat) :
    (i.withBel (b)).applyCorrectionSigma t A B = (i.applyCorrectionSigma t A B).mapv (fun j => (j.withBel (b))) := by
  unfold Inst.applyCorrectionSigma Inst.applyCorrection
  cases A.invC <;> try rfl
  rename_i a
  show ((B *! a) >>= _) = Res.mapv _ ((B *! a) >>= _)
  cases (B *! a) <;> try rfl
  rename_i L
  show (SMap.mapR (Inst.bufMul t t L) i.ccf >>= _) = Res.mapv _ (SMap.mapR (Inst.bufMul t t L) i.ccf >>= _)
  cases SMap.mapR (Inst.bufMul t t L) i.ccf <;> rfl

theorem applyCorrections_mapB (P : Mat) (t : Int) (d : SMap Belief) (row : ℕ) (h : Hdl) :
    applyCorrections P t d row (mapB g h) = (applyCorrections P t d row h).mapv (mapB g) := by
  induction d generalizing row h with
  | nil => rfl
  | cons e r ih =>
    rw [applyCorrections, applyCorrections]
    split
    · rw [Res.mapv_bind]
      congr 1
      funext B
      rw [get_mapB, Res.bind_mapv, Res.mapv_bind]
      cases hg : get h e.1 with
      | throws => rfl
      | ub => rfl
      | ok i =>
        show (Inst.applyCorrectionSigma (i.withBel (g e.1 i.bel)) t e.2.Sigma B >>= _) = Res.mapv _ (i.applyCorrectionSigma t e.2.Sigma B >>= _)
        rw [applyCorrectionSigma_bel', Res.bind_mapv, Res.mapv_bind]
        cases hj : i.applyCorrectionSigma t e.2.Sigma B with
        | throws => rfl
        | ub => rfl
        | ok j =>
          show applyCorrections P t r _ (SMap.set (mapB g h) e.1 (j.withBel (g e.1 i.bel))) = Res.mapv _ (applyCorrections P t r _ (SMap.set h e.1 j))
          rw [← applyCorrectionSigma_bel hj, set_mapB, ih]
    · exact ih row h

theorem setSigma_mapB (h : Hdl) (I J : ℕ) (S : Mat) (t : Int) : setSigma (mapB g h) I J S t = (setSigma h I J S t).mapv (mapB g) := by
  have key : ∀ (h : Hdl) (I J : ℕ) (A B : Mat),
      (get (mapB g h) I >>= fun i => get ((mapB g h).set I (i.setCCF t J A)) J >>= fun j =>
        Res.ok (((mapB g h).set I (i.setCCF t J A)).set J (j.setCCF t I B))) =
      (get h I >>= fun i => get (h.set I (i.setCCF t J A)) J >>= fun j =>
        Res.ok ((h.set I (i.setCCF t J A)).set J (j.setCCF t I B))).mapv (mapB g) := by
    intro h I J A B
    rw [get_mapB, Res.bind_mapv, Res.mapv_bind]
    cases get h I with
    | throws => rfl
    | ub => rfl
    | ok i =>
      rw [Res.bind_ok, Res.bind_ok]
      rw [setCCF_bel', ← Inst.setCCF_bel i t J A, set_mapB, get_mapB, Res.bind_mapv, Res.mapv_bind]
      cases get (SMap.set h I (i.setCCF t J A)) J with
      | throws => rfl
      | ub => rfl
      | ok j =>
        rw [Res.bind_ok, Res.bind_ok]
        rw [setCCF_bel', ← Inst.setCCF_bel j t I B, set_mapB]
        rfl
  unfold setSigma
  split
  · exact key h I J S (one S.cols)
  · exact key h J I S.tr (one S.tr.cols)

theorem splitRow_mapB (P : Mat) (t : Int) (I di row : ℕ) (l : List (ℕ × ℕ)) (col : ℕ) (h : Hdl) :
    splitRow P t I di row l col (mapB g h) = (splitRow P t I di row l col h).mapv (mapB g) := by
  induction l generalizing col h with
  | nil => rfl
  | cons e r ih =>
    rw [splitRow, splitRow, Res.mapv_bind]
    congr 1
    funext B
    rw [setSigma_mapB, Res.bind_mapv, Res.mapv_bind]
    congr 1
    funext h1
    exact ih _ h1

theorem splitRows_mapB (P : Mat) (t : Int) (l : List (ℕ × ℕ)) (row off : ℕ) (h : Hdl) :
    splitRows P t l row off (mapB g h) = (splitRows P t l row off h).mapv (mapB g) := by
  induction l generalizing row off h with
  | nil => rfl
  | cons e r ih =>
    rw [splitRows, splitRows, splitRow_mapB, Res.bind_mapv, Res.mapv_bind]
    congr 1
    funext h1
    exact ih _ _ h1

theorem splitRightUpper_mapB (P : Mat) (d : SMap Belief) (t : Int) (h : Hdl) :
    splitRightUpper P d t (mapB g h) = (splitRightUpper P d t h).mapv (mapB g) := by
  unfold splitRightUpper
  dsimp only
  split
  · rfl
  · exact splitRows_mapB P t _ 0 0 h

/-! ## Only the sizes, covariances and options of the dictionary matter -/

theorem setMean_fixed (b : Belief) (m : Mat) : (b.setMean m).fixed = b.fixed := rfl
theorem setMean_dim (b : Belief) (m : Mat) : (b.setMean m).dim = b.dim := rfl
theorem setMean_Sigma (b : Belief) (m : Mat) : (b.setMean m).Sigma = b.Sigma := rfl
theorem setMean_mean (b : Belief) (m : Mat) : (b.setMean m).mean = m := rfl

/-- The dictionaries differ in the means of unfixed beliefs only. -/
inductive SameBut : SMap Belief → SMap Belief → Prop
  | nil : SameBut [] []
  | fixed {e r r'} : e.2.fixed = true → SameBut r r' → SameBut (e :: r) (e :: r')
  | unfixed {e : ℕ × Belief} {m r r'} : e.2.fixed = false → SameBut r r' → SameBut (e :: r) ((e.1, (e.2.setMean m)) :: r')

theorem SameBut.getDim {d d' : SMap Belief} (hs : SameBut d d') : getDim d' = getDim d := by
  induction hs with
  | nil => rfl
  | fixed hf _ ih => rw [getDim_cons, getDim_cons, ih]
  | unfixed hf _ ih => rw [getDim_cons, getDim_cons, ih]; rfl

theorem SameBut.corrections {d d' : SMap Belief} (hs : SameBut d d') (P : Mat) (t : Int) (row : ℕ) (h : Hdl) :
    applyCorrections P t d' row h = applyCorrections P t d row h := by
  induction hs generalizing row h with
  | nil => rfl
  | fixed hf _ ih => rw [applyCorrections, applyCorrections]; simp only [hf, Bool.not_true, Bool.false_eq_true, if_false]; exact ih _ _
  | unfixed hf _ ih =>
    rw [applyCorrections, applyCorrections]
    simp only [setMean_fixed, setMean_dim, setMean_Sigma, hf, Bool.not_false, if_true]
    congr 1; funext B
    congr 1; funext i
    congr 1; funext j
    exact ih _ _

theorem SameBut.dims {d d' : SMap Belief} (hs : SameBut d d') : (Hdl.unfixed d').map (fun e => (e.1, e.2.dim)) = (Hdl.unfixed d).map (fun e => (e.1, e.2.dim)) := by
  induction hs with
  | nil => rfl
  | fixed hf _ ih => rw [unfixed_cons_neg _ _ hf, unfixed_cons_neg _ _ hf, ih]
  | unfixed hf _ ih => rw [unfixed_cons_pos _ _ hf, unfixed_cons_pos _ _ (by exact hf), List.map_cons, List.map_cons, ih]; rfl

theorem SameBut.split {d d' : SMap Belief} (hs : SameBut d d') (P : Mat) (t : Int) (h : Hdl) :
    splitRightUpper P d' t h = splitRightUpper P d t h := by
  unfold splitRightUpper; rw [hs.dims]

/-! ## The last step -/

theorem set_mapB_ne {h : Hdl} (hs : h.Sorted) (k : ℕ) (i : Inst) (g : ℕ → Buf Belief → Buf Belief) :
    (mapB g h).set k i = mapB (fun id => if id = k then fun b => b else g id) (h.set k i) := by
  induction h with
  | nil => show [(k, i)] = [(k, _)]; simp; rfl
  | cons e r ih =>
    have hr : SMap.Sorted r := (List.pairwise_cons.mp hs).2
    have hlt : ∀ x ∈ r, e.1 < x.1 := (List.pairwise_cons.mp hs).1
    have rest : ∀ l : Hdl, (∀ x ∈ l, x.1 ≠ k) → mapB (fun id => if id = k then fun b => b else g id) l = mapB g l := by
      intro l hl
      unfold mapB
      refine List.map_congr_left ?_
      intro x hx
      dsimp only
      rw [if_neg (hl x hx)]
    rw [mapB_cons, SMap.set, SMap.set]
    dsimp only
    split
    · rename_i hk
      rw [mapB_cons]
      rw [rest (e :: r) (by
        intro x hx
        rcases List.mem_cons.mp hx with rfl | hx
        · omega
        · have := hlt x hx; omega)]
      simp only [if_true]
      rfl
    · split
      · rename_i _ hk
        rw [mapB_cons]
        rw [rest r (by intro x hx; have := hlt x hx; omega)]
        simp only [if_true]
        rfl
      · rename_i h1 h2
        rw [mapB_cons, ← ih hr]
        rw [if_neg (Ne.symm h2)]

/-- What `boxplusAll` and the in-place means amount to: the corrected means, and no further correction. -/
theorem correctBeliefs_mapB {P dx : Mat} {t : Int} {d d' : SMap Belief} (hsb : SameBut d d') {row : ℕ} {h : Hdl} (hh : h.Sorted)
    {g : ℕ → Buf Belief → Buf Belief} (hg : ∀ k b v, Buf.insertMap (g k b) t v = Buf.insertMap b t v)
    (hk : ∀ k, k ∉ (unfixed d).keys → g k = fun b => b) {n : ℕ} (hdx : dx.Shape n 1) (hn : row + getDim d ≤ n)
    (hbp : boxplusAll dx (unfixed d) row = .ok (unfixed d')) (hmn : ∀ e ∈ unfixed d, e.2.mean.Shape e.2.dim 1) :
    correctBeliefs P (Mat.zero n 1) t d' row (mapB g h) = correctBeliefs P dx t d row h := by
  induction hsb generalizing row h g with
  | nil =>
    have : mapB g h = h := by
      unfold mapB
      conv_rhs => rw [← List.map_id h]
      refine List.map_congr_left ?_
      intro x _
      rw [hk x.1 (by simp [unfixed, SMap.keys])]
      rfl
    rw [this]; rfl
  | fixed hf hs ih =>
    rename_i e r r'
    rw [unfixed_cons_neg _ _ hf] at hbp hk hmn
    rw [unfixed_cons_neg _ _ hf] at hbp
    rw [getDim_cons] at hn
    simp only [hf, Bool.not_true, Bool.false_eq_true, if_false] at hn
    rw [correctBeliefs, correctBeliefs]
    simp only [hf, Bool.not_true, Bool.false_eq_true, if_false]
    exact ih hh hg hk (by simpa using hn) hbp hmn
  | unfixed hf hs ih =>
    rename_i e m r r'
    rw [unfixed_cons_pos _ _ hf] at hbp hk hmn
    rw [unfixed_cons_pos _ _ (by exact hf)] at hbp
    rw [getDim_cons] at hn
    simp only [hf, Bool.not_false, if_true] at hn
    rw [boxplusAll] at hbp
    obtain ⟨v, hv, hbp⟩ := bind_eq_ok hbp
    obtain ⟨mm, hm, hbp⟩ := bind_eq_ok hbp
    obtain ⟨rs, hrs, hbp⟩ := bind_eq_ok hbp
    obtain ⟨e1, e2⟩ := List.cons.inj (Res.ok.inj hbp)
    have emm : mm = m := congrArg (fun x : ℕ × Belief => x.2.mean) e1
    subst emm
    subst e2
    rw [correctBeliefs, correctBeliefs]
    simp only [setMean_fixed, setMean_dim, setMean_Sigma, hf, Bool.not_false, if_true]
    show (P.blockC row row e.2.dim e.2.dim >>= _) = _
    congr 1
    funext B
    rw [hv, Res.bind_ok]
    have hz : (Mat.zero n 1).blockC row 0 e.2.dim 1 = .ok (Mat.zero e.2.dim 1) := by
      rw [blockC_ok (by show row + e.2.dim ≤ n; omega) (by show 0 + 1 ≤ 1; omega)]
      congr 1
      refine Mat.ext' rfl rfl ?_
      intro i j _ _
      rw [block_e, zero_e, zero_e]
      simp
    show ((Mat.zero n 1).blockC row 0 e.2.dim 1 >>= _) = _
    rw [hz, Res.bind_ok]
    have hmsh := hmn e List.mem_cons_self
    have hvs : v.Shape e.2.dim 1 := by
      have : dx.blockC row 0 e.2.dim 1 = .ok (dx.block row 0 e.2.dim 1) :=
        blockC_ok (by rw [hdx.1]; omega) (by rw [hdx.2])
      rw [this] at hv; rw [← Res.ok.inj hv]; exact ⟨rfl, rfl⟩
    have hm' : mm = e.2.mean + v := by
      rw [hmsh.addC hvs] at hm; exact (Res.ok.inj hm).symm
    have c1 : Belief.correct (e.2.setMean mm) (Mat.zero e.2.dim 1) B = .ok ⟨mm, B, e.2.stamp, e.2.fixed, e.2.essential⟩ := by
      unfold Belief.correct
      have hms : mm.Shape e.2.dim 1 := by rw [hm']; exact hmsh.add

      rw [setMean_mean, hms.addC (B := Mat.zero e.2.dim 1) ⟨rfl, rfl⟩, Res.bind_ok]
      have : mm + Mat.zero e.2.dim 1 = mm := by
        refine Mat.ext' rfl rfl ?_
        intro i j _ _
        rw [add_e _ _ (by rw [hms.1]; rfl) (by rw [hms.2]; rfl), zero_e, add_zero]
      rw [this]; rfl
    have c2 : Belief.correct e.2 v B = .ok ⟨mm, B, e.2.stamp, e.2.fixed, e.2.essential⟩ := by
      unfold Belief.correct
      rw [hm, Res.bind_ok]
    rw [c1, c2, Res.bind_ok, Res.bind_ok, get_mapB, Res.bind_mapv]
    congr 1
    funext i
    have hset : (i.withBel (g e.1 i.bel)).setBelief ⟨mm, B, e.2.stamp, e.2.fixed, e.2.essential⟩ t =
        i.setBelief ⟨mm, B, e.2.stamp, e.2.fixed, e.2.essential⟩ t := by
      unfold Inst.setBelief Inst.withBel; dsimp only; rw [hg]
    rw [hset, set_mapB_ne hh]
    refine ih (hh.set _ _) ?_ ?_ ?_ hrs (fun e' he' => hmn e' (List.mem_cons_of_mem _ he'))
    · intro k b v

      split
      · rfl
      · exact hg k b v
    · intro k hkk

      split
      · rfl
      · rename_i hne
        refine hk k ?_
        intro hmem
        rcases List.mem_cons.mp hmem with h1 | h1
        · exact hne h1
        · exact hkk h1
    · rw [Nat.add_assoc]; convert hn using 2 

/-! ## `setMeans` -/

theorem set_cons_lt {V : Type _} (e : ℕ × V) (r : SMap V) (k : ℕ) (v : V) (h : e.1 < k) : SMap.set (e :: r) k v = e :: SMap.set r k v := by
  rw [SMap.set, if_neg (by omega), if_neg (by omega)]

theorem keys_of_sameBut {d d' : SMap Belief} (hs : SameBut d d') : d'.keys = d.keys := by
  induction hs with
  | nil => rfl
  | fixed _ _ ih => show _ :: _ = _ :: _; exact congrArg _ ih
  | unfixed _ _ ih => show _ :: _ = _ :: _; exact congrArg _ ih

theorem SameBut.sorted {d d' : SMap Belief} (hs : SameBut d d') (hd : d.Sorted) : d'.Sorted := by
  rw [SMap.sorted_iff_keys, keys_of_sameBut hs, ← SMap.sorted_iff_keys]; exact hd

/-- Writing the means into the dictionary and the histories. -/
theorem setMeans_spec {t : Int} {d d' : SMap Belief} (hsb : SameBut d d') (l : SMap Belief) (hsort : (l ++ d).Sorted) {h : Hdl} (hh : h.Sorted)
    (hreg : ∀ k ∈ (unfixed d).keys, (h.find k).isSome = true) :
    ∃ g : ℕ → Buf Belief → Buf Belief, (∀ k b v, Buf.insertMap (g k b) t v = Buf.insertMap b t v) ∧
      (∀ k, k ∉ (unfixed d).keys → g k = fun b => b) ∧ setMeans t (unfixed d') h (l ++ d) = .ok (mapB g h, l ++ d') := by
  induction hsb generalizing l h with
  | nil =>
    refine ⟨fun _ b => b, fun _ _ _ => rfl, fun _ _ => rfl, ?_⟩
    show Res.ok (h, _) = _
    congr 2
    unfold mapB
    conv_lhs => rw [← List.map_id h]
    rfl
  | fixed hf hs ih =>
    rename_i e r r'
    rw [unfixed_cons_neg _ _ hf]
    rw [unfixed_cons_neg _ _ hf] at hreg ⊢
    have := ih (l ++ [e]) (by simpa using hsort) hh hreg
    simpa using this
  | unfixed hf hs ih =>
    rename_i e m r r'
    rw [unfixed_cons_pos _ _ hf] at hreg ⊢
    rw [unfixed_cons_pos _ _ (by exact hf)]
    have hfind : SMap.find (l ++ e :: r) e.1 = some e.2 := (SMap.find_eq_some hsort _ _).mpr (by simp)
    obtain ⟨i, hi⟩ := Option.isSome_iff_exists.mp (hreg e.1 List.mem_cons_self)
    have hset : SMap.set (l ++ e :: r) e.1 (e.2.setMean m) = l ++ (e.1, (e.2.setMean m)) :: r := by
      have hl : ∀ x ∈ l, x.1 < e.1 := fun x hx => (List.pairwise_append.mp hsort).2.2 x hx e List.mem_cons_self
      clear hsort hfind ih hreg
      induction l with
      | nil => show SMap.set (e :: r) e.1 _ = _; rw [SMap.set, if_neg (by omega), if_pos rfl]; rfl
      | cons x l ihl =>
        show SMap.set (x :: (l ++ e :: r)) e.1 _ = x :: (l ++ _)
        rw [set_cons_lt _ _ _ _ (hl x List.mem_cons_self), ihl (fun y hy => hl y (List.mem_cons_of_mem _ hy))]
    have hsort' : ((l ++ [(e.1, (e.2.setMean m))]) ++ r).Sorted := by
      rw [SMap.sorted_iff_keys] at hsort ⊢
      have : ((l ++ [(e.1, (e.2.setMean m))]) ++ r : SMap Belief).keys = (l ++ e :: r : SMap Belief).keys := by
        simp [SMap.keys]
      rw [this]; exact hsort
    obtain ⟨g, hg1, hg2, hg3⟩ := ih (l ++ [(e.1, (e.2.setMean m))]) hsort' (hh.set e.1 (i.setBelief (e.2.setMean m) t))
      (fun k hk => by
        rw [SMap.find_set]
        split
        · rfl
        · exact hreg k (List.mem_cons_of_mem _ hk))
    have hne : e.1 ∉ (unfixed r).keys := by
      intro hmem
      obtain ⟨x, hx, hxe⟩ := List.mem_map.mp hmem
      have := (List.pairwise_cons.mp (List.pairwise_append.mp hsort).2.1).1 x (mem_unfixed.mp hx).1
      omega
    refine ⟨fun k => if k = e.1 then fun b => Buf.insertMap b t (e.2.setMean m) else g k, ?_, ?_, ?_⟩
    · intro k b v
      dsimp only
      split
      · exact Buf.insertMap_insertMap b t _ v
      · exact hg1 k b v
    · intro k hk
      dsimp only
      have h1 : k ≠ e.1 := fun h => hk (by rw [h]; exact List.mem_cons_self)
      rw [if_neg h1]
      exact hg2 k (fun h => hk (List.mem_cons_of_mem _ h))
    · rw [setMeans]
      dsimp only
      rw [hfind]
      dsimp only
      rw [get_ok hi, Res.bind_ok, setMean_mean, hset]
      have : (l ++ (e.1, (e.2.setMean m)) :: r : SMap Belief) = (l ++ [(e.1, (e.2.setMean m))]) ++ r := by simp
      rw [this, hg3]
      congr 1
      refine Prod.ext ?_ (by simp)
      have key : ∀ l : Hdl, l.Sorted → SMap.find l e.1 = some i → mapB g (SMap.set l e.1 (i.setBelief (e.2.setMean m) t)) =
          mapB (fun k => if k = e.1 then fun b => Buf.insertMap b t (e.2.setMean m) else g k) l := by
        intro l hl hf
        induction l with
        | nil => cases hf
        | cons x q ihq =>
          have hq := List.pairwise_cons.mp hl
          rw [SMap.find_cons] at hf
          rw [SMap.set]
          by_cases hx : x.1 = e.1
          · rw [if_pos hx] at hf
            obtain rfl := Option.some.inj hf
            rw [if_neg (by omega), if_pos hx.symm]
            rw [mapB_cons, mapB_cons]
            have r1 : mapB g q = mapB (fun k => if k = e.1 then fun b => Buf.insertMap b t (e.2.setMean m) else g k) q := by
              unfold mapB
              refine List.map_congr_left ?_
              intro y hy
              dsimp only
              rw [if_neg (by have := hq.1 y hy; omega)]
            rw [← r1]
            congr 1
            refine Prod.ext hx.symm ?_
            dsimp only
            rw [if_pos hx, hg2 e.1 hne]
            rfl
          · rw [if_neg hx] at hf
            have hlt : x.1 < e.1 := hq.1 (e.1, i) (SMap.mem_of_find hf)
            rw [if_neg (by omega), if_neg (by omega)]
            rw [mapB_cons, mapB_cons]
            rw [ihq hq.2 hf]
            rw [if_neg hx]
      exact key h hh hi

end Hdl
end Ikf
