import Verif.Model.Decoupled
import Verif.Lemmas.Central

/-! # The handler with decoupled propagation against the centralised filter -/

namespace Ikf
open Mat
namespace Hdl

/-- Jacobians of all instances `ks`: zero ones for those without. -/
noncomputable def padH (dim : ℕ → ℕ) (m : ℕ) (dH : SMap Mat) (ks : List ℕ) : SMap Mat :=
  ks.map (fun p => (p, (dH.find p).getD (Mat.zero m (dim p))))

theorem padH_keys (dim : ℕ → ℕ) (m : ℕ) (dH : SMap Mat) (ks : List ℕ) : (padH dim m dH ks).keys = ks := by
  unfold padH SMap.keys; rw [List.map_map]; exact List.map_id ks

theorem setBlock_zero {H : Mat} {m col n : ℕ} (hr : H.rows = m) (hc : col + n ≤ H.cols) (hz : ∀ i j, col ≤ j → H.e i j = 0) :
    H.setBlock 0 col (Mat.zero m n) = H := by
  refine Mat.ext' rfl rfl ?_
  intro i j _ _
  rw [setBlock_e (by rw [zero_rows]; omega) (by rw [zero_cols]; omega)]
  split
  · rename_i h; rw [zero_e, hz i j h.2.2.1]
  · rfl

theorem stackAllLoop_eq (dim : ℕ → ℕ) (dH : SMap Mat) (m : ℕ) (ks : List ℕ) (col : ℕ) (H G : Mat) (hr : H.rows = m)
    (hc : col + tot (ks.map fun p => (p, dim p)) ≤ H.cols) (hz : ∀ i j, col ≤ j → H.e i j = 0)
    (h : stackAllLoop dH m (ks.map fun p => (p, dim p)) col H = .ok G) :
    stackHLoop m (padH dim m dH ks) col H = .ok G ∧ ∀ p ∈ ks, ∀ M, dH.find p = some M → M.Shape m (dim p) := by
  induction ks generalizing col H with
  | nil => exact ⟨h, by simp⟩
  | cons p r ih =>
    simp only [List.map_cons, tot] at hc
    simp only [List.map_cons, stackAllLoop] at h
    cases hf : dH.find p with
    | none =>
      rw [hf, Res.bind_ok] at h
      obtain ⟨i1, i2⟩ := ih (col + dim p) H hr (by omega) (fun i j hj => hz i j (by omega)) h
      refine ⟨?_, ?_⟩
      · simp only [padH, List.map_cons, hf, Option.getD_none, stackHLoop]
        rw [zero_cols, setBlockC, if_pos ⟨by omega, by omega, zero_rows _ _, zero_cols _ _⟩, Res.bind_ok, setBlock_zero hr (by omega) hz]
        exact i1
      · intro q hq M hM
        rcases List.mem_cons.mp hq with rfl | hq
        · rw [hf] at hM; simp at hM
        · exact i2 q hq M hM
    | some M =>
      rw [hf] at h
      simp only at h
      unfold Mat.setBlockC at h
      split at h
      · rename_i hd
        rw [Res.bind_ok] at h
        obtain ⟨i1, i2⟩ := ih (col + dim p) (H.setBlock 0 col M) hr (by show _ ≤ H.cols; omega) (by
          intro i j hj
          rw [setBlock_e (by omega) (by omega), if_neg (by omega), hz i j (by omega)]) h
        refine ⟨?_, ?_⟩
        · simp only [padH, List.map_cons, hf, Option.getD_some, stackHLoop]
          rw [setBlockC, if_pos ⟨hd.1, by omega, hd.2.2.1, rfl⟩, Res.bind_ok, hd.2.2.2]
          exact i1
        · intro q hq N hN
          rcases List.mem_cons.mp hq with rfl | hq
          · rw [hf] at hN; rw [← Option.some.inj hN]; exact ⟨hd.2.2.1, hd.2.2.2⟩
          · exact i2 q hq N hN
      · simp at h

theorem sum_tot (l : List (ℕ × ℕ)) : (l.map (·.2)).sum = tot l := by
  induction l with
  | nil => rfl
  | cons a r ih => simp only [List.map_cons, List.sum_cons, tot, ih]

theorem allDims_ok {dim : ℕ → ℕ} (h : Hdl) (hd : ∀ e ∈ h, ∃ b, e.2.bel.latest = some b ∧ b.2.dim = dim e.1) :
    allDims h = .ok (h.keys.map fun p => (p, dim p)) := by
  induction h with
  | nil => rfl
  | cons e r ih =>
    obtain ⟨b, h1, h2⟩ := hd e List.mem_cons_self
    unfold allDims
    rw [h1]
    simp only
    rw [ih (fun x hx => hd x (List.mem_cons_of_mem _ hx)), Res.bind_ok, h2]
    rfl

section rel
variable {dim : ℕ → ℕ} {h : Hdl} {c : Central} {t : Int}

theorem Rel.latest (hr : Rel dim h c) {p : ℕ} {i : Inst} (hf : h.find p = some i) :
    ∃ b, i.bel.latest = some (c.tm p, b) ∧ bl h p (c.tm p) = some b := by
  have hp : (h.find p).isSome := by rw [hf]; rfl
  obtain ⟨b, h1, -⟩ := hr.bel p hp
  have h0 := h1
  rw [bl_of_find hf] at h1
  have ho := (hr.ok.ord p i hf).bel
  rw [Inst.beliefAt_eq, Buf.absMap_eq_some _ ho] at h1
  refine ⟨b, ?_, h0⟩
  cases hl : i.bel.getLast? with
  | none => rw [List.getLast?_eq_none_iff] at hl; rw [hl] at h1; simp at h1
  | some e =>
    have g1 := ho.sorted.le_getLast hl _ h1
    have g2 := (hr.ok.upTo p i hf).bel e (List.mem_of_getLast? hl)
    simp only at g1
    have g3 : e.1 = c.tm p := by omega
    have g4 := (Buf.absMap_eq_some _ ho e.1 e.2).mpr (List.mem_of_getLast? hl)
    rw [g3, (Buf.absMap_eq_some _ ho _ _).mpr h1] at g4
    unfold Buf.latest
    rw [hl, Option.some.inj g4, ← g3]

theorem Rel.allDims (hr : Rel dim h c) : allDims h = .ok (h.keys.map fun p => (p, dim p)) := by
  refine allDims_ok h ?_
  intro e he
  have hf : h.find e.1 = some e.2 := (SMap.find_eq_some hr.ok.sorted e.1 e.2).mpr he
  obtain ⟨b, h1, h2⟩ := hr.latest hf
  exact ⟨_, h1, (hr.stored (by rw [hf]; rfl) h2).2.2.2.2.1⟩

/-- The stacked Jacobian of the full state. -/
theorem stackHAll_spec (hr : Rel dim h c) {dH : SMap Mat} {H : Mat} (hH : stackHAll h dH = .ok H) :
    SideBySide (padH dim H.rows dH h.keys) H ∧ H.Shape (lastRows dH 0) (tot (h.keys.map fun p => (p, dim p))) ∧
      ∀ p ∈ h.keys, ∀ M, dH.find p = some M → M.Shape H.rows (dim p) := by
  unfold stackHAll at hH
  rw [hr.allDims, Res.bind_ok, sum_tot] at hH
  obtain ⟨e1, e2⟩ := stackAllLoop_eq dim dH (lastRows dH 0) h.keys 0 _ H (zero_rows _ _) (by rw [zero_cols]; omega)
    (fun i j _ => zero_e _ _ _ _) hH
  set m := lastRows dH 0 with hm
  have hc : hcols (padH dim m dH h.keys) = h.keys.map fun p => (p, dim p) := by
    unfold hcols padH
    rw [List.map_map]
    apply List.map_congr_left
    intro p hp
    simp only [Function.comp]
    cases hf : dH.find p with
    | none => rw [Option.getD_none, zero_cols]
    | some M => rw [Option.getD_some, (e2 p hp M hf).2]
  have hks : ((padH dim m dH h.keys).map (·.1)) = h.keys := padH_keys dim m dH h.keys
  have hn : ((padH dim m dH h.keys).map (·.1)).Nodup := by
    rw [hks]; exact ((SMap.sorted_iff_keys h).mp hr.ok.sorted).imp (fun h => Nat.ne_of_lt h)
  have := stackHLoop_spec m (padH dim m dH h.keys) [] (Mat.zero m (tot (h.keys.map fun p => (p, dim p)))) H (by simpa using hn)
    ⟨rfl, by rw [zero_cols, List.nil_append, hc]⟩ (by simp) e1
  simp only [List.nil_append] at this
  have hrows : H.rows = m := this.1.1
  rw [hrows]
  refine ⟨⟨this.1.2, fun e he => ⟨?_, (this.2 e he).2⟩⟩, ⟨hrows, ?_⟩, e2⟩
  · rw [(this.2 e he).1, hrows]
  · rw [this.1.2, hc]

/-- Everybody's newest belief is at `t`. -/
theorem parts_all (hr : Rel dim h c) (hN : ∀ p ∈ h.keys, c.tm p = t) (m : ℕ) (dH : SMap Mat) :
    Parts dim h c (padH dim m dH h.keys) t where
  sorted := (SMap.sorted_iff_keys _).mpr (by rw [padH_keys]; exact (SMap.sorted_iff_keys h).mp hr.ok.sorted)
  reg p hp := by rw [padH_keys] at hp; exact (SMap.find_isSome_iff h p).mpr hp
  tm p hp := by rw [padH_keys] at hp; exact hN p hp

end rel

theorem getDictAll_of (pred : ℕ → Inst → Int → Inst × Bool) {T : ℕ → Int} {h : Hdl} (hk : HOk T h) (t : Int) (B : ℕ → Belief) (ids : List ℕ) (acc : SMap Belief)
    (hids : ids.Pairwise (· < ·)) (hacc : ∀ e ∈ acc, ∀ p ∈ ids, e.1 < p) (hB : ∀ p ∈ ids, bl h p t = some (B p)) :
    getDictAll pred h ids t acc = .ok (h, acc ++ ids.map (fun p => (p, B p))) := by
  induction ids generalizing acc with
  | nil => simp [getDictAll]
  | cons p r ih =>
    rw [List.pairwise_cons] at hids
    have hb := hB p List.mem_cons_self
    unfold bl at hb
    cases hf : h.find p with
    | none => rw [hf] at hb; simp at hb
    | some i =>
      rw [hf] at hb
      simp only [Option.bind_some] at hb
      unfold getDictAll beliefPredict
      have hex : i.bel.existAt t = true := by
        rw [Inst.beliefAt_eq, Buf.absMap_eq_some _ (hk.ord p i hf).bel] at hb
        rw [Buf.existAt_iff]
        exact ⟨_, hb, rfl⟩
      rw [get_ok hf, Res.bind_ok, if_pos hex, Res.bind_ok, hb]
      simp only
      rw [emplace_snoc _ _ _ (fun e he => hacc e he p List.mem_cons_self), ih]
      · simp
      · exact hids.2
      · intro e he q hq
        rcases List.mem_append.mp he with he | he
        · exact hacc e he q (List.mem_cons_of_mem _ hq)
        · simp only [List.mem_singleton] at he; rw [he]; exact hids.1 q hq
      · exact fun q hq => hB q (List.mem_cons_of_mem _ hq)

theorem getDictAll_rel (pred) {dim : ℕ → ℕ} {h : Hdl} {c : Central} {t : Int} (hr : Rel dim h c) (hN : ∀ p ∈ h.keys, c.tm p = t)
    (m : ℕ) (dH : SMap Mat) : getDictAll pred h h.keys t [] = .ok (h, dict h (padH dim m dH h.keys) t) := by
  have := getDictAll_of pred hr.ok t (Hdl.blD h t) h.keys [] ((SMap.sorted_iff_keys h).mp hr.ok.sorted) (by simp)
    (fun p hpm => hr.blD ((SMap.find_isSome_iff h p).mpr hpm) (hN p hpm))
  rw [this, List.nil_append]
  unfold dict
  rw [padH_keys]

/-- Splitting and correcting without a correction of the other factors. -/
theorem commitD_spec {T : ℕ → Int} {P dx : Mat} {t : Int} {D : SMap Belief} (hDs : D.Sorted) (hne : D ≠ [])
    (hu : ∀ e ∈ D, e.2.fixed = false) (hP : P.Shape (tot (bdims D)) (tot (bdims D))) (hx : dx.Shape (tot (bdims D)) 1)
    (hm : ∀ e ∈ D, e.2.mean.Shape e.2.dim 1) (ht : ∀ e ∈ D, t ≤ T e.1)
    (h : Hdl) (hk : HOk T h) (hreg : ∀ e ∈ D, (h.find e.1).isSome) :
    ∃ h', commitD h D P dx t = .ok h' ∧ HOk T h' ∧ SameDom h h' ∧
      (∀ e ∈ D, bl h' e.1 t = some { e.2 with
        mean := e.2.mean + dx.block (off (bdims D) e.1) 0 e.2.dim 1,
        Sigma := P.block (off (bdims D) e.1) (off (bdims D) e.1) e.2.dim e.2.dim }) ∧
      (∀ a t', ¬ (t' = t ∧ a ∈ D.map (·.1)) → bl h' a t' = bl h a t') ∧
      (∀ p ∈ D, ∀ q ∈ D, p.1 < q.1 → fc h' p.1 q.1 t = some (P.block (off (bdims D) p.1) (off (bdims D) q.1) p.2.dim q.2.dim)) ∧
      (∀ p ∈ D, ∀ q ∈ D, p.1 < q.1 → fc h' q.1 p.1 t = some (one q.2.dim)) ∧
      (∀ a b t', ¬ (t' = t ∧ a ≠ b ∧ a ∈ D.map (·.1) ∧ b ∈ D.map (·.1)) → fc h' a b t' = fc h a b t') := by
  have hD := Sorted.nodup hDs
  have huD : unfixed D = D := by
    unfold unfixed; rw [List.filter_eq_self]; intro e he; simp [hu e he]
  have hbs : (bdims D).Pairwise (fun a b => a.1 < b.1) := by
    rw [List.pairwise_map]; exact hDs
  have hmemb : ∀ p ∈ bdims D, ∃ e ∈ D, (e.1, e.2.dim) = p := fun p hp => by
    obtain ⟨e, he, hep⟩ := List.mem_map.mp hp; exact ⟨e, he, hep⟩
  obtain ⟨h2, e2, k2, d2, b2, f2, g2, r2⟩ := splitRows_spec (T := T) (P := P) (t := t) hbs hP
    (fun p hp => by obtain ⟨e, he, rfl⟩ := hmemb p hp; exact ht e he) (bdims D) [] rfl h hk
    (fun p hp => by obtain ⟨e, he, rfl⟩ := hmemb p hp; exact hreg e he)
  obtain ⟨h3, e3, k3, d3, f3, b3, r3⟩ := correctBeliefs_spec hD hu hP hx hm ht D [] rfl h2 k2
    (fun e he => sameDom_isSome d2 (hreg e he))
  simp only [List.map_nil, tot] at e2 e3
  refine ⟨h3, ?_, k3, d2.trans d3, b3, ?_, ?_, ?_, ?_⟩
  · unfold commitD splitRightUpper
    rw [huD]
    have : (List.map (fun e : ℕ × Belief => (e.1, e.2.dim)) D).isEmpty = false := by
      cases D with
      | nil => exact absurd rfl hne
      | cons a b => rfl
    simp only [this, Bool.false_eq_true, if_false]
    rw [e2, Res.bind_ok, e3]
  · intro a t' hno
    rw [r3 a t' hno, b2]
  · intro p hp q hq hpq
    rw [f3]
    exact f2 (p.1, p.2.dim) (List.mem_map.mpr ⟨p, hp, rfl⟩) (q.1, q.2.dim) (List.mem_map.mpr ⟨q, hq, rfl⟩) hpq
  · intro p hp q hq hpq
    rw [f3]
    exact g2 (p.1, p.2.dim) (List.mem_map.mpr ⟨p, hp, rfl⟩) (q.1, q.2.dim) (List.mem_map.mpr ⟨q, hq, rfl⟩) hpq
  · intro a b t' hno
    rw [f3, r2 a b t' (by rw [bdims_keys]; exact hno)]

section rel
variable {dim : ℕ → ℕ} {h : Hdl} {c : Central} {dH : SMap Mat} {t : Int}

/-- If all registered instances take part and none is fixed, the result is the centralised one. -/
theorem commitD_rel (hr : Rel dim h c) (hp : Parts dim h c dH t) (hall : ∀ p, (h.find p).isSome → p ∈ dH.keys)
    (hfix : ∀ p ∈ dH.keys, c.fix p = false) (hne : dH.keys ≠ []) {P dx : Mat}
    (hP : P.Shape (tot (participants dim c dH)) (tot (participants dim c dH))) (hsym : P.tr = P)
    (hx : dx.Shape (tot (participants dim c dH)) 1) :
    ∃ h', commitD h (dict h dH t) P dx t = .ok h' ∧ SameDom h h' ∧ Rel dim h' (c.joint (participants dim c dH) P dx) := by
  have hufx : unfixed (dict h dH t) = dict h dH t := by
    unfold unfixed
    rw [List.filter_eq_self]
    intro e he
    have := mem_dict hr hp he
    simp [this.2.2.2.2.2.2.2.1, hfix _ this.1]
  rw [participants_eq hr hp, hufx] at hP hx ⊢
  have hDs := dict_sorted (h := h) hp
  have hmem : ∀ e ∈ dict h dH t, _ := fun e he => mem_dict hr hp he
  have hu : ∀ e ∈ dict h dH t, e.2.fixed = false := fun e he => by rw [(hmem e he).2.2.2.2.2.2.2.1, hfix _ (hmem e he).1]
  have hkeys : ∀ p, (h.find p).isSome → p ∈ (dict h dH t).map (·.1) := by
    intro p hp'
    refine List.mem_map.mpr ⟨(p, Hdl.blD h t p), List.mem_map.mpr ⟨p, hall p hp', rfl⟩, rfl⟩
  have hDne : dict h dH t ≠ [] := by
    unfold dict; intro h0; exact hne (List.map_eq_nil_iff.mp h0)
  generalize dict h dH t = D at hP hx hDs hmem hu hkeys hDne
  have hD := Sorted.nodup hDs
  have hbn : ((bdims D).map (·.1)).Nodup := by rw [bdims_keys]; exact hD
  have hdim : ∀ p, p ∈ (bdims D).map (·.1) → ((bdims D).lookup p).getD 0 = dim p := by
    intro p hpm
    rw [bdims_keys] at hpm
    obtain ⟨e, he, rfl⟩ := List.mem_map.mp hpm
    have := lookup_of_mem hbn (List.mem_map.mpr ⟨e, he, rfl⟩ : (e.1, e.2.dim) ∈ bdims D)
    simp only at this
    rw [this, Option.getD_some, (hmem e he).2.2.2.2.2.2.2.2.1]
  obtain ⟨h', e1, k1, hd, hb1, hb2, f1, f2, f3⟩ := commitD_spec (T := c.tm) (P := P) (dx := dx) (t := t) hDs hDne hu hP hx
    (fun e he => (hmem e he).2.2.2.2.2.2.2.2.2.1) (fun e he => (hmem e he).2.2.1.ge) h hr.ok (fun e he => (hmem e he).2.1)
  refine ⟨h', e1, hd, ?_⟩
  have hreg : ∀ {p}, (h'.find p).isSome → (h.find p).isSome := fun {p} hp => by rw [← hd p]; exact hp
  have hin' : ∀ {p}, (h'.find p).isSome → p ∈ (bdims D).map (·.1) := fun {p} hp => by rw [bdims_keys]; exact hkeys p (hreg hp)
  have hin : ∀ {p}, p ∈ (bdims D).map (·.1) → ∃ e ∈ D, e.1 = p ∧ c.tm p = t ∧ e.2.dim = dim p := by
    intro p hpm
    rw [bdims_keys] at hpm
    obtain ⟨e, he, rfl⟩ := List.mem_map.mp hpm
    exact ⟨e, he, rfl, (hmem e he).2.2.1, (hmem e he).2.2.2.2.2.2.2.2.1⟩
  have cmu : ∀ p, p ∈ (bdims D).map (·.1) → (c.joint (bdims D) P dx).mu p = c.mu p + dx.block (off (bdims D) p) 0 (dim p) 1 := by
    intro p hpm
    simp only [Central.joint]
    rw [if_pos hpm, hdim p hpm]
  have ccov2 : ∀ p q, p ∈ (bdims D).map (·.1) → q ∈ (bdims D).map (·.1) →
      (c.joint (bdims D) P dx).cov p q = P.block (off (bdims D) p) (off (bdims D) q) (dim p) (dim q) := by
    intro p q h1 h2
    simp only [Central.joint]
    rw [if_pos ⟨h1, h2⟩, hdim p h1, hdim q h2]
  have ctm : (c.joint (bdims D) P dx).tm = c.tm := rfl
  have cfix : (c.joint (bdims D) P dx).fix = c.fix := rfl
  constructor
  · exact k1
  · intro p hpr
    have hpm := hin' hpr
    rw [ctm, cfix, cmu p hpm, ccov2 p p hpm hpm]
    obtain ⟨e, he, rfl, htm, hde⟩ := hin hpm
    rw [htm, hb1 e he]
    refine ⟨_, rfl, ?_, ?_, (hmem e he).2.2.2.2.2.2.1, ?_⟩
    · simp only; rw [(hmem e he).2.2.2.2.1, hde]
    · simp only; rw [hde]
    · exact (hmem e he).2.2.2.2.2.2.2.1
  · exact fun p hpr => hr.pos p (hreg hpr)
  · intro p hpr
    rw [cmu p (hin' hpr)]
    exact (hr.muS p (hreg hpr)).add
  · intro p q hpr hqr
    rw [ccov2 p q (hin' hpr) (hin' hqr)]; exact ⟨rfl, rfl⟩
  · intro p q hpr hqr
    rw [ccov2 p q (hin' hpr) (hin' hqr), ccov2 q p (hin' hqr) (hin' hpr), block_tr hsym]
  · intro p hpr q M hM
    rw [ctm] at hM
    obtain ⟨e, he, rfl, htm, hde⟩ := hin (hin' hpr)
    rw [htm] at hM
    by_cases h2 : e.1 ≠ q ∧ q ∈ (bdims D).map (·.1)
    · obtain ⟨x, hx', rfl, -, hdx⟩ := hin h2.2
      rcases lt_or_gt_of_ne h2.1 with hlt | hlt
      · rw [f1 e he x hx' hlt] at hM
        rw [← Option.some.inj hM]; exact hde
      · rw [f2 x hx' e he hlt] at hM
        rw [← Option.some.inj hM]; exact hde
    · rw [f3 _ _ _ (fun hh => h2 ⟨hh.2.1, by rw [bdims_keys]; exact hh.2.2.2⟩)] at hM
      exact hr.rows e.1 (hreg hpr) q M (by rw [htm]; exact hM)
  · intro p q hpr hqr hpq
    rw [ctm]
    obtain ⟨e, he, rfl, htm, hde⟩ := hin (hin' hpr)
    obtain ⟨x, hx', rfl, htx, hdx⟩ := hin (hin' hqr)
    rw [htm, htx, ccov2 _ _ (hin' hpr) (hin' hqr)]
    left
    rcases lt_or_gt_of_ne hpq with hlt | hlt
    · refine ⟨_, _, f1 e he x hx' hlt, f2 e he x hx' hlt, ?_, rfl, ?_⟩
      · show 0 < x.2.dim; rw [hdx]; exact hr.pos _ (hreg hqr)
      · rw [tr_one, Mat.mul_one _ x.2.dim rfl, hde, hdx]
    · refine ⟨_, _, f2 x hx' e he hlt, f1 x hx' e he hlt, ?_, rfl, ?_⟩
      · show 0 < e.2.dim; rw [hde]; exact hr.pos _ (hreg hpr)
      · rw [block_tr hsym, Mat.one_mul (P.block (off (bdims D) e.1) (off (bdims D) x.1) e.2.dim x.2.dim) e.2.dim rfl, hde, hdx]

end rel
end Hdl
end Ikf
