import Verif.Lemmas.Iterated

/-! # The loop of the iterated joint observation -/

namespace Ikf
open Mat
namespace Hdl

/-! ## Sortedness -/

theorem applyCorrections_sorted {P : Mat} {t : Int} {d : SMap Belief} {row : ℕ} {h h' : Hdl} (hh : h.Sorted)
    (hs : applyCorrections P t d row h = .ok h') : h'.Sorted := by
  induction d generalizing row h with
  | nil => rw [← Res.ok.inj hs]; exact hh
  | cons e r ih =>
    rw [applyCorrections] at hs
    split at hs
    · obtain ⟨B, hB, hs⟩ := bind_eq_ok hs
      obtain ⟨i, hi, hs⟩ := bind_eq_ok hs
      obtain ⟨j, hj, hs⟩ := bind_eq_ok hs
      exact ih (hh.set _ _) hs
    · exact ih hh hs

theorem setSigma_sorted {h h' : Hdl} {I J : ℕ} {S : Mat} {t : Int} (hh : h.Sorted) (hs : setSigma h I J S t = .ok h') : h'.Sorted := by
  unfold setSigma at hs
  split at hs
  · obtain ⟨i, hi, hs⟩ := bind_eq_ok hs
    obtain ⟨j, hj, hs⟩ := bind_eq_ok hs
    rw [← Res.ok.inj hs]; exact (hh.set _ _).set _ _
  · obtain ⟨i, hi, hs⟩ := bind_eq_ok hs
    obtain ⟨j, hj, hs⟩ := bind_eq_ok hs
    rw [← Res.ok.inj hs]; exact (hh.set _ _).set _ _

theorem splitRow_sorted {P : Mat} {t : Int} {I di row : ℕ} (l : List (ℕ × ℕ)) {col : ℕ} {h h' : Hdl} (hh : h.Sorted)
    (hs : splitRow P t I di row l col h = .ok h') : h'.Sorted := by
  induction l generalizing col h with
  | nil => rw [← Res.ok.inj hs]; exact hh
  | cons e r ih =>
    rw [splitRow] at hs
    obtain ⟨B, hB, hs⟩ := bind_eq_ok hs
    obtain ⟨h1, e1, hs⟩ := bind_eq_ok hs
    exact ih (setSigma_sorted hh e1) hs

theorem splitRows_sorted {P : Mat} {t : Int} (l : List (ℕ × ℕ)) {row off : ℕ} {h h' : Hdl} (hh : h.Sorted)
    (hs : splitRows P t l row off h = .ok h') : h'.Sorted := by
  induction l generalizing row off h with
  | nil => rw [← Res.ok.inj hs]; exact hh
  | cons e r ih =>
    rw [splitRows] at hs
    obtain ⟨h1, e1, hs⟩ := bind_eq_ok hs
    exact ih (splitRow_sorted _ hh e1) hs

theorem splitRightUpper_sorted {P : Mat} {t : Int} {d : SMap Belief} {h h' : Hdl} (hh : h.Sorted)
    (hs : splitRightUpper P d t h = .ok h') : h'.Sorted := by
  unfold splitRightUpper at hs
  simp only at hs
  split at hs
  · cases hs
  · exact splitRows_sorted _ hh hs

/-! ## The last step -/

/-- Every unfixed mean is a column of the size of the belief. -/
def MeanOk (d : SMap Belief) : Prop := ∀ e ∈ unfixed d, e.2.mean.Shape e.2.dim 1

/-- The means written first, no correction afterwards: the same as the correction. -/
theorem commit_setMeans {P dx : Mat} {t : Int} {d d' : SMap Belief} (hsb : SameBut d d') (hd : d.Sorted) {h : Hdl} (hh : h.Sorted)
    (hreg : ∀ k ∈ (unfixed d).keys, (h.find k).isSome = true) (hdx : dx.Shape (getDim d) 1)
    (hbp : boxplusAll dx (unfixed d) 0 = .ok (unfixed d')) (hmn : MeanOk d) :
    (setMeans t (unfixed d') h d >>= fun y => commit y.1 y.2 P (Mat.zero (getDim y.2) 1) t) = commit h d P dx t := by
  obtain ⟨g, hg1, hg2, hg3⟩ := setMeans_spec (t := t) hsb [] hd hh hreg
  rw [show ([] ++ d : SMap Belief) = d from rfl] at hg3
  rw [hg3, Res.bind_ok]
  show commit (mapB g h) d' P (Mat.zero (getDim d') 1) t = _
  unfold commit
  rw [hsb.getDim, hsb.corrections, applyCorrections_mapB, Res.bind_mapv]
  cases h1 : applyCorrections P t d 0 h with
  | throws => rfl
  | ub => rfl
  | ok a =>
    rw [Res.bind_ok, Res.bind_ok, hsb.split, splitRightUpper_mapB, Res.bind_mapv]
    cases h2 : splitRightUpper P d t a with
    | throws => rfl
    | ub => rfl
    | ok b =>
      rw [Res.bind_ok, Res.bind_ok]
      exact correctBeliefs_mapB hsb (splitRightUpper_sorted (applyCorrections_sorted hh h1) h2) hg1 hg2 hdx (by omega) hbp hmn

/-! ## The corrected beliefs -/

theorem unfixed_sameBut_fixed {e : ℕ × Belief} {r : SMap Belief} (hf : e.2.fixed = true) : unfixed (e :: r) = unfixed r := unfixed_cons_neg e r hf

theorem boxplusAll_spec {dx : Mat} {n : ℕ} (hdx : dx.Shape n 1) (d : SMap Belief) (row : ℕ) (hn : row + getDim d ≤ n) (hm : MeanOk d) :
    ∃ d', SameBut d d' ∧ boxplusAll dx (unfixed d) row = .ok (unfixed d') ∧ MeanOk d' := by
  induction d generalizing row with
  | nil => exact ⟨[], .nil, rfl, fun e he => by cases he⟩
  | cons e r ih =>
    rw [getDim_cons] at hn
    by_cases hf : e.2.fixed = true
    · simp only [hf, Bool.not_true, Bool.false_eq_true, if_false] at hn
      obtain ⟨d', h1, h2, h3⟩ := ih row (by omega) (by unfold MeanOk at hm ⊢; rw [unfixed_cons_neg _ _ hf] at hm; exact hm)
      refine ⟨e :: d', .fixed hf h1, ?_, ?_⟩
      · rw [unfixed_cons_neg _ _ hf, unfixed_cons_neg _ _ hf]; exact h2
      · unfold MeanOk; rw [unfixed_cons_neg _ _ hf]; exact h3
    · have hf' : e.2.fixed = false := by simpa using hf
      simp only [hf', Bool.not_false, if_true] at hn
      unfold MeanOk at hm
      rw [unfixed_cons_pos _ _ hf'] at hm
      obtain ⟨d', h1, h2, h3⟩ := ih (row + e.2.dim) (by omega) (fun x hx => hm x (List.mem_cons_of_mem _ hx))
      have hme := hm e List.mem_cons_self
      refine ⟨(e.1, e.2.setMean (e.2.mean + dx.block row 0 e.2.dim 1)) :: d', .unfixed hf' h1, ?_, ?_⟩
      · rw [unfixed_cons_pos _ _ hf', unfixed_cons_pos _ _ (by exact hf'), boxplusAll,
          blockC_ok (by rw [hdx.1]; omega) (by rw [hdx.2]), Res.bind_ok,
          hme.addC (B := dx.block row 0 e.2.dim 1) ⟨rfl, rfl⟩, Res.bind_ok, h2, Res.bind_ok]
      · unfold MeanOk
        rw [unfixed_cons_pos _ _ (by exact hf')]
        intro x hx
        rcases List.mem_cons.mp hx with rfl | hx
        · exact hme.add
        · exact h3 x hx

/-- Adding zero changes nothing. -/
theorem boxplusAll_zero {n : ℕ} (d : SMap Belief) (row : ℕ) (hn : row + getDim d ≤ n) (hm : MeanOk d) :
    boxplusAll (Mat.zero n 1) (unfixed d) row = .ok (unfixed d) := by
  induction d generalizing row with
  | nil => rfl
  | cons e r ih =>
    rw [getDim_cons] at hn
    by_cases hf : e.2.fixed = true
    · simp only [hf, Bool.not_true, Bool.false_eq_true, if_false] at hn
      unfold MeanOk at hm
      rw [unfixed_cons_neg _ _ hf] at hm ⊢
      exact ih row (by omega) hm
    · have hf' : e.2.fixed = false := by simpa using hf
      simp only [hf', Bool.not_false, if_true] at hn
      unfold MeanOk at hm
      rw [unfixed_cons_pos _ _ hf'] at hm ⊢
      have hme := hm e List.mem_cons_self
      rw [boxplusAll, blockC_ok (by show row + e.2.dim ≤ n; omega) (by show 0 + 1 ≤ 1; omega), Res.bind_ok,
        hme.addC (B := (Mat.zero n 1).block row 0 e.2.dim 1) ⟨rfl, rfl⟩, Res.bind_ok,
        ih (row + e.2.dim) (by omega) (fun x hx => hm x (List.mem_cons_of_mem _ hx)), Res.bind_ok]
      have : e.2.mean + (Mat.zero n 1).block row 0 e.2.dim 1 = e.2.mean := by
        refine Mat.ext' rfl rfl ?_
        intro i j _ _
        rw [add_e _ _ (by rw [hme.1]; rfl) (by rw [hme.2]; rfl), block_e, zero_e]
        simp
      rw [this]
      rfl

/-- The dictionary with the means of the iteration. -/
theorem foldl_emplace {l : List (ℕ × Belief)} {p : ℕ × Belief → Bool} {a : SMap Belief} (ha : a.Sorted) :
    (l.foldl (fun a e => if p e then a.emplace e.1 e.2 else a) a).Sorted := by
  induction l generalizing a with
  | nil => exact ha
  | cons e r ih =>
    rw [List.foldl_cons]
    refine ih ?_
    split
    · exact ha.emplace _ _
    · exact ha

theorem find_foldl_emplace (l : List (ℕ × Belief)) (p : ℕ × Belief → Bool) (a : SMap Belief) (k : ℕ) :
    (l.foldl (fun a e => if p e then a.emplace e.1 e.2 else a) a).find k = (a.find k).or (SMap.find (l.filter p) k) := by
  induction l generalizing a with
  | nil => simp
  | cons e r ih =>
    rw [List.foldl_cons, ih]
    by_cases hp : p e = true
    · rw [if_pos hp, List.filter_cons_of_pos hp, SMap.find_cons]
      unfold SMap.emplace
      cases hf : a.find e.1 with
      | some v =>
        by_cases hk : e.1 = k
        · subst hk; rw [hf]; simp
        · rw [if_neg hk]
      | none =>
        rw [show SMap.find (a.set e.1 e.2) k = if e.1 = k then some e.2 else a.find k from SMap.find_set a e.1 e.2 k]
        by_cases hk : e.1 = k
        · subst hk; rw [if_pos rfl, if_pos rfl, hf]; simp
        · rw [if_neg hk, if_neg hk]
    · rw [if_neg hp, List.filter_cons_of_neg hp]

theorem sorted_ext {V : Type _} {a b : SMap V} (ha : a.Sorted) (hb : b.Sorted) (h : ∀ k, a.find k = b.find k) : a = b := by
  have hmem : ∀ x, x ∈ a ↔ x ∈ b := by
    rintro ⟨k, v⟩
    rw [← SMap.find_eq_some ha, ← SMap.find_eq_some hb, h]
  have nd : ∀ {c : SMap V}, c.Sorted → c.Nodup := fun hc => hc.imp (fun h e => by rw [e] at h; omega)
  have hp : a.Perm b := (List.perm_ext_iff_of_nodup (nd ha) (nd hb)).mpr hmem
  exact hp.eq_of_pairwise (fun x y _ _ h1 h2 => by omega) ha hb

theorem SameBut.mem_fixed {d d' : SMap Belief} (hs : SameBut d d') : d'.filter (fun e => e.2.fixed) = d.filter (fun e => e.2.fixed) := by
  induction hs with
  | nil => rfl
  | fixed hf _ ih => rw [List.filter_cons_of_pos (by exact hf), List.filter_cons_of_pos (by exact hf), ih]
  | unfixed hf _ ih =>
    rw [List.filter_cons_of_neg (by show ¬ _ = true; rw [setMean_fixed, hf]; simp), List.filter_cons_of_neg (by rw [hf]; simp), ih]

theorem fullBel_eq {d d' : SMap Belief} (hs : SameBut d d') (hd : d.Sorted) : fullBel (Hdl.unfixed d') d = d' := by
  have hd' := hs.sorted hd
  have e1 : ∀ x : SMap Belief, fullBel x d = d.foldl (fun (a : SMap Belief) e => if e.2.fixed then a.emplace e.1 e.2 else a)
      (x.foldl (fun (a : SMap Belief) e => if (fun _ : ℕ × Belief => true) e then a.emplace e.1 e.2 else a) []) := fun _ => rfl
  rw [e1]
  have hnil : SMap.Sorted ([] : SMap Belief) := List.Pairwise.nil
  refine sorted_ext (foldl_emplace (foldl_emplace hnil)) hd' ?_
  intro k
  rw [find_foldl_emplace d (fun e => e.2.fixed), find_foldl_emplace (Hdl.unfixed d') (fun _ => true), ← hs.mem_fixed]
  rw [SMap.find_nil, Option.none_or, List.filter_true]
  have h1 : SMap.Sorted (d'.filter (fun e => e.2.fixed)) := List.Pairwise.filter _ hd'
  cases hk : SMap.find (Hdl.unfixed d') k with
  | some v =>
    rw [Option.some_or]
    have := SMap.mem_of_find hk
    exact ((SMap.find_eq_some hd' k v).mpr (mem_unfixed.mp this).1).symm
  | none =>
    rw [Option.none_or]
    cases hk2 : SMap.find (d'.filter (fun e => e.2.fixed)) k with
    | some v =>
      have := SMap.mem_of_find hk2
      exact ((SMap.find_eq_some hd' k v).mpr (List.mem_filter.mp this).1).symm
    | none =>
      refine Eq.symm ((SMap.find_none_iff d' k).mpr ?_)
      intro e he hek
      by_cases hf : e.2.fixed = true
      · exact (SMap.find_none_iff _ k).mp hk2 e (List.mem_filter.mpr ⟨he, hf⟩) hek
      · exact (SMap.find_none_iff _ k).mp hk e (mem_unfixed.mpr ⟨he, by simpa using hf⟩) hek

theorem SameBut.refl (d : SMap Belief) : SameBut d d := by
  induction d with
  | nil => exact .nil
  | cons e r ih =>
    by_cases hf : e.2.fixed = true
    · exact .fixed hf ih
    · exact SameBut.unfixed (e := e) (m := e.2.mean) (by simpa using hf) ih

/-! ## The state error and its Jacobian -/

theorem stateError_spec {dx : Mat} {n : ℕ} (hdx : dx.Shape n 1) {d d' : SMap Belief} (hsb : SameBut d d') {X : SMap Belief}
    (hX : ∀ e ∈ Hdl.unfixed d', X.find e.1 = some e.2) (hm : MeanOk d) {row : ℕ} (hn : row + getDim d ≤ n)
    (hbp : boxplusAll dx (Hdl.unfixed d) row = .ok (Hdl.unfixed d')) {E : Mat} (hE : E.Shape n 1) :
    ∃ F, stateError X d row E = .ok F ∧ F.Shape n 1 ∧
      ∀ i, F.e i 0 = if row ≤ i ∧ i < row + getDim d then dx.e i 0 else E.e i 0 := by
  induction hsb generalizing row E with
  | nil =>
    refine ⟨E, rfl, hE, ?_⟩
    intro i
    rw [if_neg (by show ¬ (row ≤ i ∧ i < row + 0); omega)]
  | fixed hf hs ih =>
    rename_i e r r'
    unfold MeanOk at hm
    rw [unfixed_cons_neg _ _ hf] at hX hm hbp
    rw [unfixed_cons_neg _ _ hf] at hbp
    rw [getDim_cons] at hn
    simp only [hf, Bool.not_true, Bool.false_eq_true, if_false] at hn
    obtain ⟨F, h1, h2, h3⟩ := ih hX hm (by omega) hbp hE
    refine ⟨F, ?_, h2, ?_⟩
    · rw [stateError]; simp only [hf, Bool.not_true, Bool.false_eq_true, if_false]; exact h1
    · intro i
      rw [h3, getDim_cons]
      simp only [hf, Bool.not_true, Bool.false_eq_true, if_false, Nat.zero_add]
  | unfixed hf hs ih =>
    rename_i e m r r'
    unfold MeanOk at hm
    rw [unfixed_cons_pos _ _ (by exact hf)] at hX
    rw [unfixed_cons_pos _ _ hf] at hm hbp
    rw [unfixed_cons_pos _ _ (by exact hf)] at hbp
    rw [getDim_cons] at hn
    simp only [hf, Bool.not_false, if_true] at hn
    have hme := hm e List.mem_cons_self
    rw [boxplusAll, blockC_ok (by rw [hdx.1]; omega) (by rw [hdx.2]), Res.bind_ok,
      hme.addC (B := dx.block row 0 e.2.dim 1) ⟨rfl, rfl⟩, Res.bind_ok] at hbp
    obtain ⟨rs, hrs, hbp⟩ := bind_eq_ok hbp
    obtain ⟨e1, e2⟩ := List.cons.inj (Res.ok.inj hbp)
    have emm : e.2.mean + dx.block row 0 e.2.dim 1 = m := congrArg (fun x : ℕ × Belief => x.2.mean) e1
    subst e2
    have hmm : m.Shape e.2.dim 1 := by rw [← emm]; exact hme.add
    have hdiff : (m - e.2.mean).Shape e.2.dim 1 := hmm.sub
    obtain ⟨F, h1, h2, h3⟩ := ih (fun x hx => hX x (List.mem_cons_of_mem _ hx)) (fun x hx => hm x (List.mem_cons_of_mem _ hx))
      (row := row + e.2.dim) (by omega) hrs (E := E.setBlock row 0 (m - e.2.mean)) hE
    refine ⟨F, ?_, h2, ?_⟩
    · rw [stateError]
      simp only [hf, Bool.not_false, if_true]
      rw [hX _ List.mem_cons_self]
      show ((m -! e.2.mean) >>= _) = _
      rw [hmm.subC hme, Res.bind_ok, setBlockC_ok (by rw [hE.1]; omega) (by rw [hE.2]) hdiff.1 hdiff.2, Res.bind_ok]
      exact h1
    · intro i
      rw [h3, getDim_cons]
      simp only [hf, Bool.not_false, if_true]
      by_cases c1 : row + e.2.dim ≤ i ∧ i < row + e.2.dim + getDim r
      · rw [if_pos c1, if_pos (by omega)]
      · rw [if_neg c1]
        rw [setBlock_e (by rw [hdiff.1, hE.1]; omega) (by rw [hdiff.2, hE.2])]
        rw [hdiff.1, hdiff.2]
        by_cases c2 : row ≤ i ∧ i < row + e.2.dim
        · rw [if_pos (by omega), if_pos (by omega), sub_e _ _ (by rw [hme.1, hmm.1]) (by rw [hme.2, hmm.2]), ← emm,
            add_e _ _ (by rw [hme.1]; rfl) (by rw [hme.2]; rfl), block_e, if_pos (by omega)]
          have : row + (i - row) = i := by omega
          rw [this]; ring
        · rw [if_neg (by omega), if_neg (by omega)]

/-- The state error is the correction. -/
theorem stateError_eq {dx : Mat} {d d' : SMap Belief} (hdx : dx.Shape (getDim d) 1) (hsb : SameBut d d') (hd : d.Sorted) (hm : MeanOk d)
    (hbp : boxplusAll dx (Hdl.unfixed d) 0 = .ok (Hdl.unfixed d')) :
    stateError (Hdl.unfixed d') d 0 (Mat.zero (getDim d) 1) = .ok dx := by
  have hX : ∀ e ∈ Hdl.unfixed d', (Hdl.unfixed d').find e.1 = some e.2 := fun e he =>
    (SMap.find_eq_some (unfixed_sorted (hsb.sorted hd)) _ _).mpr he
  obtain ⟨F, h1, h2, h3⟩ := stateError_spec hdx hsb hX hm (row := 0) (by omega) hbp (E := Mat.zero (getDim d) 1) ⟨rfl, rfl⟩
  rw [h1]
  congr 1
  refine Mat.ext' (by rw [h2.1, hdx.1]) (by rw [h2.2, hdx.2]) ?_
  intro i j hi hj
  rw [h2.1] at hi
  rw [h2.2] at hj
  have : j = 0 := by omega
  subst this
  rw [h3, if_pos (by omega)]

/-- With identity Jacobians of the beliefs the Jacobian of the state error is the identity. -/
theorem stateJac_one {pj : Belief → Mat → Mat} (hpj : ∀ b v, pj b v = one b.dim) {ex : Mat} {n : ℕ} (hex : ex.Shape n 1) (x : SMap Belief)
    {row : ℕ} (hn : row + getDim x ≤ n) : stateJac pj ex x row (one n) = .ok (one n) := by
  induction x generalizing row with
  | nil => rfl
  | cons e r ih =>
    rw [getDim_cons] at hn
    rw [stateJac]
    by_cases hf : e.2.fixed = true
    · simp only [hf, Bool.not_true, Bool.false_eq_true, if_false] at hn ⊢
      exact ih (by omega)
    · have hf' : e.2.fixed = false := by simpa using hf
      simp only [hf', Bool.not_false, if_true] at hn ⊢
      rw [blockC_ok (by rw [hex.1]; omega) (by rw [hex.2]), Res.bind_ok, hpj,
        setBlockC_ok (A := one n) (B := one e.2.dim) (i := row) (j := row) (r := e.2.dim) (c := e.2.dim) (by show row + e.2.dim ≤ n; omega)
          (by show row + e.2.dim ≤ n; omega) rfl rfl, Res.bind_ok]
      have : (one n).setBlock row row (one e.2.dim) = one n := by
        refine Mat.ext' rfl rfl ?_
        intro i j hi hj
        rw [setBlock_e (by show row + e.2.dim ≤ n; omega) (by show row + e.2.dim ≤ n; omega)]
        show (if row ≤ i ∧ i < row + e.2.dim ∧ row ≤ j ∧ j < row + e.2.dim then _ else _) = _
        split
        · rename_i c
          rw [one_e, one_e]
          have hi' : i < n := hi
          by_cases hij : i = j
          · rw [if_pos ⟨by omega, by omega⟩, if_pos ⟨hij, hi'⟩]
          · rw [if_neg (fun h => by omega), if_neg (fun h => hij h.1)]
        · rfl
      rw [this]
      exact ih (by omega)

/-- The mean of the corrected beliefs is the mean plus the correction. -/
theorem stackMeanLoop_add {dx : Mat} {n : ℕ} (hdx : dx.Shape n 1) {d d' : SMap Belief} (hsb : SameBut d d') (hm : MeanOk d) {row : ℕ}
    (hn : row + getDim d ≤ n) (hbp : boxplusAll dx (Hdl.unfixed d) row = .ok (Hdl.unfixed d')) {M N : Mat} (hM : M.Shape n 1) (hN : N.Shape n 1) :
    ∃ m m', stackMeanLoop d row M = .ok m ∧ stackMeanLoop d' row N = .ok m' ∧ m.Shape n 1 ∧ m'.Shape n 1 ∧
      ∀ i, (row ≤ i ∧ i < row + getDim d → m'.e i 0 = m.e i 0 + dx.e i 0) ∧
        (¬ (row ≤ i ∧ i < row + getDim d) → m.e i 0 = M.e i 0 ∧ m'.e i 0 = N.e i 0) := by
  induction hsb generalizing row M N with
  | nil =>
    refine ⟨M, N, rfl, rfl, hM, hN, ?_⟩
    intro i
    refine ⟨fun h => ?_, fun _ => ⟨rfl, rfl⟩⟩
    have : getDim ([] : SMap Belief) = 0 := rfl
    omega
  | fixed hf hs ih =>
    rename_i e r r'
    unfold MeanOk at hm
    rw [unfixed_cons_neg _ _ hf] at hm hbp
    rw [unfixed_cons_neg _ _ hf] at hbp
    rw [getDim_cons] at hn
    simp only [hf, Bool.not_true, Bool.false_eq_true, if_false] at hn
    obtain ⟨m, m', h1, h2, h3, h4, h5⟩ := ih hm (by omega) hbp hM hN
    refine ⟨m, m', ?_, ?_, h3, h4, ?_⟩
    · rw [stackMeanLoop]; simp only [hf, Bool.not_true, Bool.false_eq_true, if_false]; exact h1
    · rw [stackMeanLoop]; simp only [hf, Bool.not_true, Bool.false_eq_true, if_false]; exact h2
    · rw [getDim_cons]
      simp only [hf, Bool.not_true, Bool.false_eq_true, if_false, Nat.zero_add]
      exact h5
  | unfixed hf hs ih =>
    rename_i e mm r r'
    unfold MeanOk at hm
    rw [unfixed_cons_pos _ _ hf] at hm hbp
    rw [unfixed_cons_pos _ _ (by exact hf)] at hbp
    rw [getDim_cons] at hn
    simp only [hf, Bool.not_false, if_true] at hn
    have hme := hm e List.mem_cons_self
    rw [boxplusAll, blockC_ok (by rw [hdx.1]; omega) (by rw [hdx.2]), Res.bind_ok,
      hme.addC (B := dx.block row 0 e.2.dim 1) ⟨rfl, rfl⟩, Res.bind_ok] at hbp
    obtain ⟨rs, hrs, hbp⟩ := bind_eq_ok hbp
    obtain ⟨e1, e2⟩ := List.cons.inj (Res.ok.inj hbp)
    have emm : e.2.mean + dx.block row 0 e.2.dim 1 = mm := congrArg (fun x : ℕ × Belief => x.2.mean) e1
    subst e2
    have hmm : mm.Shape e.2.dim 1 := by rw [← emm]; exact hme.add
    obtain ⟨m, m', h1, h2, h3, h4, h5⟩ := ih (fun x hx => hm x (List.mem_cons_of_mem _ hx))
      (row := row + e.2.dim) (by omega) hrs (M := M.setBlock row 0 e.2.mean) (N := N.setBlock row 0 mm) hM hN
    refine ⟨m, m', ?_, ?_, h3, h4, ?_⟩
    · rw [stackMeanLoop]
      simp only [hf, Bool.not_false, if_true]
      rw [setBlockC_ok (by rw [hM.1]; omega) (by rw [hM.2]) hme.1 hme.2, Res.bind_ok]
      exact h1
    · rw [stackMeanLoop]
      simp only [setMean_fixed, setMean_dim, setMean_mean, hf, Bool.not_false, if_true]
      rw [setBlockC_ok (by rw [hN.1]; omega) (by rw [hN.2]) hmm.1 hmm.2, Res.bind_ok]
      exact h2
    · intro i
      rw [getDim_cons]
      simp only [hf, Bool.not_false, if_true]
      obtain ⟨p1, p2⟩ := h5 i
      by_cases c1 : row + e.2.dim ≤ i ∧ i < row + e.2.dim + getDim r
      · exact ⟨fun _ => p1 c1, fun h => by omega⟩
      · obtain ⟨q1, q2⟩ := p2 c1
        rw [setBlock_e (by rw [hme.1, hM.1]; omega) (by rw [hme.2, hM.2]), hme.1, hme.2] at q1
        rw [setBlock_e (by rw [hmm.1, hN.1]; omega) (by rw [hmm.2, hN.2]), hmm.1, hmm.2] at q2
        by_cases c2 : row ≤ i ∧ i < row + e.2.dim
        · rw [if_pos (by omega)] at q1 q2
          refine ⟨fun _ => ?_, fun h => by omega⟩
          rw [q1, q2, ← emm, add_e _ _ (by rw [hme.1]; rfl) (by rw [hme.2]; rfl), block_e, if_pos (by omega)]
          have : row + (i - row) = i := by omega
          rw [this]
        · rw [if_neg (by omega)] at q1 q2
          exact ⟨fun h => by omega, fun _ => ⟨q1, q2⟩⟩

theorem stackMean_add {dx : Mat} {d d' : SMap Belief} (hdx : dx.Shape (getDim d) 1) (hsb : SameBut d d') (hm : MeanOk d)
    (hbp : boxplusAll dx (Hdl.unfixed d) 0 = .ok (Hdl.unfixed d')) :
    ∃ m, stackMean d = .ok m ∧ stackMean d' = .ok (m + dx) ∧ m.Shape (getDim d) 1 := by
  obtain ⟨m, m', h1, h2, h3, h4, h5⟩ := stackMeanLoop_add hdx hsb hm (row := 0) (by omega) hbp (M := Mat.zero (getDim d) 1)
    (N := Mat.zero (getDim d) 1) ⟨rfl, rfl⟩ ⟨rfl, rfl⟩
  refine ⟨m, h1, ?_, h3⟩
  unfold stackMean
  rw [hsb.getDim, h2]
  congr 1
  refine Mat.ext' (by rw [h4.1]; exact h3.1.symm) (by rw [h4.2]; exact h3.2.symm) ?_
  intro i j hi hj
  rw [h4.1] at hi
  rw [h4.2] at hj
  have : j = 0 := by omega
  subst this
  rw [add_e _ _ (by rw [hdx.1, h3.1]) (by rw [hdx.2, h3.2])]
  exact (h5 i).1 (by omega)

/-! ## One iteration -/

theorem innov_tr {H R r S : Mat} {n m : ℕ} (h : ObsShape H R r S n m) (eps : ℝ) : (innov H R S eps).tr = innov H R S eps := by
  have h0 := innov0_shape h
  apply toM_inj (n := m) (m := m) (h0.stabM eps).tr.1 (h0.stabM eps).tr.2 (h0.stabM eps).1 (h0.stabM eps).2
  rw [toM_tr, toM_stabM h0, Matrix.transpose_add, Matrix.transpose_smul, Matrix.transpose_add, Matrix.transpose_transpose,
    Matrix.transpose_smul, Matrix.transpose_one, add_comm ((innov0 H R S).toM m m).transpose]

/-- The body behind the residual, with the identity as Jacobian of the state error. -/
theorem iterCorrect_eq {cfg : Cfg} {S R H e r : Mat} {n m : ℕ} (h : ObsShape H R r S n m) (he : e.Shape n 1) (x : SMap Belief) :
    iterCorrect cfg S R H e (one n) r x =
      (gate (innov H R S cfg.eps) r cfg >>= fun good =>
        if good then boxplusAll (gainM H R S cfg.eps * r - e) x 0 >>= fun y =>
          .ok (.next ⟨y, H, gainM H R S cfg.eps, one n, S, r⟩ (gainM H R S cfg.eps * r - e))
        else .ok (.ret .rejected r)) := by
  unfold iterCorrect
  have hI := Shape.one n
  have hSi := innov_shape h cfg.eps
  have hK := gainM_shape h cfg.eps
  have e1 : one n * S = S := Mat.one_mul S n h.S.1
  have e2 : S * (one n).tr = S := by rw [show (one n).tr = one n from by
    refine Mat.ext' rfl rfl ?_
    intro i j _ _
    rw [tr_e, one_e, one_e]
    by_cases hij : i = j
    · subst hij; rfl
    · rw [if_neg (fun h => hij h.1.symm), if_neg (fun h => hij h.1)]]; exact Mat.mul_one S n h.S.2
  rw [hI.mulC h.S, Res.bind_ok, e1, h.S.mulC hI.tr, Res.bind_ok, e2, h.H.mulC h.S, Res.bind_ok, (h.H.mul h.S).mulC h.H.tr, Res.bind_ok,
    ((h.H.mul h.S).mul h.H.tr).addC h.R, Res.bind_ok]
  rw [show (H * S * H.tr + R) = innov0 H R S from rfl, stabilize_ok (innov0_shape h), Res.bind_ok]
  rw [show stabM (innov0 H R S) cfg.eps = innov H R S cfg.eps from rfl]
  congr 1
  funext good
  cases good with
  | false => rfl
  | true =>
    rw [if_pos rfl, if_pos rfl]
    rw [h.S.mulC h.H.tr, Res.bind_ok, hSi.invC, Res.bind_ok, (h.S.mul h.H.tr).mulC hSi.inv, Res.bind_ok]
    rw [show S * H.tr * (innov H R S cfg.eps).inv = gainM H R S cfg.eps from rfl]
    rw [hK.mulC h.r, Res.bind_ok, hI.mulC he, Res.bind_ok, Mat.one_mul e n he.1, (hK.mul h.r).subC he, Res.bind_ok]

/-- The posterior of the loop before the repair. -/
noncomputable def loopPost (H R S : Mat) (cfg : Cfg) : Mat :=
  if cfg.stab then stabM (post0 H R S cfg) cfg.eps else post0 H R S cfg

theorem iterPost_eq {near : Mat → Mat} {pj : Belief → Mat → Mat} {R : Mat} {d x : SMap Belief} {cfg : Cfg} {iter : ℕ} {H S r J : Mat} {m : ℕ}
    (h : ObsShape H R r S (getDim d) m)
    (hp : ∀ P, P.Shape (getDim d) (getDim d) → project pj d x iter P = .ok P) :
    iterPost near pj R d cfg iter ⟨x, H, gainM H R S cfg.eps, J, S, r⟩ = .ok (fixPsd near (loopPost H R S cfg)) := by
  unfold iterPost
  have hK := gainM_shape h cfg.eps
  have hU := updM_shape h cfg.eps
  dsimp only
  rw [hK.mulC h.H, Res.bind_ok, (Shape.one (getDim d)).subC (hK.mul h.H), Res.bind_ok]
  have hu : one (getDim d) - gainM H R S cfg.eps * H = updM H R S cfg.eps := by unfold updM; rw [h.S.1]
  rw [hu]
  have hp0 : (if cfg.joseph = true then do
        let x ← updM H R S cfg.eps *! S
        let y ← x *! (updM H R S cfg.eps).tr
        let v ← gainM H R S cfg.eps *! R
        let w ← v *! (gainM H R S cfg.eps).tr
        y +! w
      else updM H R S cfg.eps *! S) = .ok (post0 H R S cfg) := by
    unfold post0
    split
    · rw [hU.mulC h.S, Res.bind_ok, (hU.mul h.S).mulC hU.tr, Res.bind_ok, hK.mulC h.R, Res.bind_ok,
        (hK.mul h.R).mulC hK.tr, Res.bind_ok, ((hU.mul h.S).mul hU.tr).addC ((hK.mul h.R).mul hK.tr)]
    · rw [hU.mulC h.S]
  have hP := post0_shape h cfg
  rw [hp0, Res.bind_ok, hp _ hP, Res.bind_ok]
  unfold loopPost
  split
  · rw [stabilize_ok hP, Res.bind_ok]
  · rw [Res.bind_ok]

theorem stabM_tr {S : Mat} {n : ℕ} (h : S.Shape n n) (eps : ℝ) : (stabM S eps).tr = stabM S eps := by
  apply toM_inj (n := n) (m := n) (h.stabM eps).tr.1 (h.stabM eps).tr.2 (h.stabM eps).1 (h.stabM eps).2
  rw [toM_tr, toM_stabM h, Matrix.transpose_add, Matrix.transpose_smul, Matrix.transpose_add, Matrix.transpose_transpose,
    Matrix.transpose_smul, Matrix.transpose_one, add_comm (S.toM n n).transpose]

theorem symM_of_tr {S : Mat} {n : ℕ} (h : S.Shape n n) (ht : S.tr = S) : symM S = S := by
  apply toM_inj (n := n) (m := n) h.symM.1 h.symM.2 h.1 h.2
  have : (S.toM n n).transpose = S.toM n n := by rw [← toM_tr, ht]
  exact toM_symM_symm h this

/-- The loop does not symmetrise its posterior; nothing is lost if it is symmetric anyway. -/
theorem loopPost_eq {H R S r : Mat} {n m : ℕ} (h : ObsShape H R r S n m) (hS : S.tr = S) (cfg : Cfg)
    (hc : cfg.stab = true ∨ R.tr = R) : loopPost H R S cfg = postM H R S cfg := by
  unfold loopPost postM
  have hP := post0_shape h cfg
  by_cases hst : cfg.stab = true
  · rw [if_pos hst, symM_of_tr (hP.stabM _) (stabM_tr hP _)]
  · rw [if_neg hst]
    have hR : R.tr = R := hc.resolve_left hst
    refine (symM_of_tr hP ?_).symm
    have hinv : (innov H R S cfg.eps).inv.tr = (innov H R S cfg.eps).inv := by
      have hSi := innov_shape h cfg.eps
      apply toM_inj (n := m) (m := m) hSi.inv.tr.1 hSi.inv.tr.2 hSi.inv.1 hSi.inv.2
      rw [toM_tr, hSi.toM_inv, Matrix.transpose_nonsing_inv, ← toM_tr, innov_tr h]
    have hKS : (gainM H R S cfg.eps * H * S).tr = gainM H R S cfg.eps * H * S := by
      unfold gainM
      rw [tr_mul, tr_mul, tr_mul, tr_mul, hinv, hS, tr_tr]
      simp only [Mat.mul_assoc]
    unfold post0
    split
    · have hU := updM_shape h cfg.eps
      have hK := gainM_shape h cfg.eps
      refine Mat.ext' (by rfl) (by rfl) ?_
      intro i j _ _
      have a1 := ((hU.mul h.S).mul hU.tr)
      have a2 := ((hK.mul h.R).mul hK.tr)
      have t1 : (updM H R S cfg.eps * S * (updM H R S cfg.eps).tr).tr = updM H R S cfg.eps * S * (updM H R S cfg.eps).tr := by
        rw [tr_mul, tr_mul, tr_tr, hS, Mat.mul_assoc]
      have t2 : (gainM H R S cfg.eps * R * (gainM H R S cfg.eps).tr).tr = gainM H R S cfg.eps * R * (gainM H R S cfg.eps).tr := by
        rw [tr_mul, tr_mul, tr_tr, hR, Mat.mul_assoc]
      rw [tr_e, add_e _ _ (by rw [a1.1, a2.1]) (by rw [a1.2, a2.2]), add_e _ _ (by rw [a1.1, a2.1]) (by rw [a1.2, a2.2])]
      have u1 := congrArg (fun M : Mat => M.e i j) t1
      have u2 := congrArg (fun M : Mat => M.e i j) t2
      simp only [tr_e] at u1 u2
      rw [u1, u2]
    · have hK := gainM_shape h cfg.eps
      have e1 : updM H R S cfg.eps * S = S - gainM H R S cfg.eps * H * S := by
        unfold updM
        apply toM_inj (n := n) (m := n)
        · show (one S.rows).rows = n; exact h.S.1
        · exact h.S.2
        · exact h.S.1
        · exact h.S.2
        · have hI : (one S.rows).Shape n n := by rw [h.S.1]; exact Shape.one n
          rw [(hI.sub (B := gainM H R S cfg.eps * H)).toM_mul, hI.toM_sub (hK.mul h.H), h.S.1, toM_one, h.S.toM_sub ((hK.mul h.H).mul h.S),
            (hK.mul h.H).toM_mul, Matrix.sub_mul, Matrix.one_mul]
      rw [e1]
      refine Mat.ext' (by show S.cols = S.rows; rw [h.S.1, h.S.2]) (by show S.rows = S.cols; rw [h.S.1, h.S.2]) ?_
      intro i j _ _
      have a1 := (hK.mul h.H).mul h.S
      rw [tr_e, sub_e _ _ (by rw [a1.1, h.S.1]) (by rw [a1.2, h.S.2]), sub_e _ _ (by rw [a1.1, h.S.1]) (by rw [a1.2, h.S.2])]
      have u1 := congrArg (fun M : Mat => M.e i j) hKS
      have u2 := congrArg (fun M : Mat => M.e i j) hS
      simp only [tr_e] at u1 u2
      rw [u1, u2]

end Hdl
end Ikf
