import Verif.Model.Access
import Verif.Props.FactorStore
import Verif.Props.StandaloneKF

/-! # Properties C79, C80: access to beliefs and factors by estimator ID

`Stored h p t b`: instance `p` is registered and its history holds belief `b` at time `t`. -/

namespace Ikf.Access
open Hdl Mat

/-- Instance `p` is registered and holds belief `b` at `t`. -/
def Stored (h : Hdl) (p : ℕ) (t : Int) (b : Belief) : Prop := ∃ i, (p, i) ∈ h ∧ (t, b) ∈ i.bel

/-- Instance `p` is registered. -/
def Registered (h : Hdl) (p : ℕ) : Prop := ∃ i, (p, i) ∈ h

theorem set_self {V : Type _} {m : SMap V} (hm : m.Sorted) {k : ℕ} {v : V} (hf : m.find k = some v) : m.set k v = m := by
  induction m with
  | nil => simp at hf
  | cons e r ih =>
    have hs := List.pairwise_cons.mp hm
    have hmem := SMap.mem_of_find hf
    unfold SMap.set
    rcases List.mem_cons.mp hmem with he | he
    · subst he; simp
    · have := hs.1 _ he
      rw [if_neg (by simp only at this; omega), if_neg (by simp only at this; omega), ih hs.2 ((SMap.find_eq_some hs.2 _ _).mpr he)]

theorem registered_iff {h : Hdl} (hs : h.Sorted) (p : ℕ) : Registered h p ↔ (h.find p).isSome = true := by
  rw [Option.isSome_iff_exists]
  exact ⟨fun ⟨i, hi⟩ => ⟨i, (SMap.find_eq_some hs _ _).mpr hi⟩, fun ⟨i, hi⟩ => ⟨i, SMap.mem_of_find hi⟩⟩

theorem not_registered {h : Hdl} (hs : h.Sorted) {p : ℕ} (hn : ¬ Registered h p) : h.find p = none := by
  rw [registered_iff hs] at hn; simpa using hn

theorem stored_find {h : Hdl} (hs : h.Sorted) {p : ℕ} {i : Inst} (hf : h.find p = some i) (t : Int) (b : Belief) :
    Stored h p t b ↔ (t, b) ∈ i.bel := by
  constructor
  · rintro ⟨j, hj, hb⟩
    have := (SMap.find_eq_some hs _ _).mpr hj
    rw [hf] at this; rw [Option.some.inj this]; exact hb
  · exact fun hb => ⟨i, SMap.mem_of_find hf, hb⟩

theorem stored_none {h : Hdl} (hs : h.Sorted) {p : ℕ} (hf : h.find p = none) (t : Int) (b : Belief) : ¬ Stored h p t b := by
  rintro ⟨j, hj, _⟩
  rw [(SMap.find_eq_some hs _ _).mpr hj] at hf; cases hf

theorem stored_congr {h h' : Hdl} (hs : h.Sorted) (hs' : h'.Sorted) {p : ℕ} (e : h'.find p = h.find p) (t : Int) (b : Belief) :
    Stored h' p t b ↔ Stored h p t b := by
  cases hf : h.find p with
  | none => rw [hf] at e; exact ⟨fun x => absurd x (stored_none hs' e t b), fun x => absurd x (stored_none hs hf t b)⟩
  | some i => rw [stored_find hs hf, stored_find hs' (e.trans hf)]

theorem Ordered.set {h : Hdl} (ho : Ordered h) (p : ℕ) {i : Inst} (hi : i.Ord) : Ordered (h.set p i) where
  sorted := ho.sorted.set p i
  inst := by
    intro q j hj
    rw [SMap.find_set] at hj
    split at hj
    · rw [← Option.some.inj hj]; exact hi
    · exact ho.inst q j hj

/-! ## C79: one handler -/

/-- C79. `set_belief_at_t(ID, bel, t)` succeeds exactly for a registered ID; then `bel` is what this instance holds at `t`,
and nothing else changes: no other time, no other instance, no factor. For an unknown ID nothing changes at all. -/
theorem c79_set_belief {h : Hdl} (ho : Ordered h) (id : ℕ) (b : Belief) (t : Int) :
    ((setBeliefAt h id b t).2 = true ↔ Registered h id) ∧
    (¬ Registered h id → (setBeliefAt h id b t).1 = h) ∧ Ordered (setBeliefAt h id b t).1 ∧
    (Registered h id → ∀ p t' b', Stored (setBeliefAt h id b t).1 p t' b' ↔
      if p = id ∧ t' = t then b' = b else Stored h p t' b') ∧
    (∀ p t' J, factorAt (setBeliefAt h id b t).1 p t' J = factorAt h p t' J) ∧
    ∀ p, Registered (setBeliefAt h id b t).1 p ↔ Registered h p := by
  unfold setBeliefAt
  cases hf : h.find id with
  | none =>
    have hn : ¬ Registered h id := by rw [registered_iff ho.sorted, hf]; simp
    exact ⟨by simp [hn], fun _ => rfl, ho, fun hr => absurd hr hn, fun _ _ _ => rfl, fun _ => Iff.rfl⟩
  | some i =>
    have hr : Registered h id := by rw [registered_iff ho.sorted, hf]; rfl
    have hi := ho.inst id i hf
    have ho' := Ordered.set ho id (hi.setBelief b t)
    simp only
    refine ⟨by simp [hr], fun hn => absurd hr hn, ho', fun _ p t' b' => ?_, fun p t' J => ?_, fun p => ?_⟩
    · by_cases hp : p = id
      · subst hp
        rw [stored_find ho'.sorted (SMap.find_set_self _ _ _), stored_find ho.sorted hf]
        show (t', b') ∈ i.bel.insertMap t b ↔ _
        rw [Buf.mem_insertMap _ hi.bel]
        by_cases ht : t' = t <;> simp [ht]
      · rw [if_neg (fun x => hp x.1)]
        exact stored_congr ho.sorted ho'.sorted (SMap.find_set_ne _ (Ne.symm hp) _) t' b'
    · unfold factorAt
      rw [SMap.find_set]
      by_cases hp : id = p
      · subst hp; rw [if_pos rfl, hf]; rfl
      · rw [if_neg hp]
    · rw [registered_iff ho'.sorted, registered_iff ho.sorted, SMap.find_set]
      by_cases hp : id = p
      · subst hp; simp [hf]
      · rw [if_neg hp]

/-- The lookup of an instance is the lookup of the standalone filter, unless it predicts. -/
theorem getBelief_std (pred : Inst → Int → Inst × Bool) (i : Inst) (t : Int) (ty : GetBelief) (hty : ty ≠ .predict) :
    (i.getBelief pred t ty).2 = (SKF.getBelief (B := Belief) (P := Unit) ⟨fun b _ => (b, .processed), fun b _ => (b, .processed), fun b _ => (b, false)⟩
      ⟨i.bel, [], 0, 0, false⟩ t ty).2 := by
  unfold Inst.getBelief SKF.getBelief Inst.beliefAt
  cases ty with
  | predict => exact absurd rfl hty
  | exact => simp only; split <;> rfl
  | closest =>
    simp only
    split
    · cases i.bel.getBefore t <;> cases i.bel.getAfter t <;> simp only [] <;> split <;> rfl
    · rfl

theorem getBelief_same (pred : Inst → Int → Inst × Bool) (i : Inst) (t : Int) (ty : GetBelief)
    (hty : ty ≠ .predict ∨ ∃ b, (t, b) ∈ i.bel) : (i.getBelief pred t ty).1 = i := by
  unfold Inst.getBelief
  split
  · rename_i hno
    cases ty with
    | exact => rfl
    | closest => simp only; split <;> split <;> (try split) <;> rfl
    | predict =>
      rcases hty with hty | ⟨b, hb⟩
      · exact absurd rfl hty
      · have := (Buf.existAt_iff i.bel t).mpr ⟨_, hb, rfl⟩
        rw [this] at hno; simp at hno
  · rfl

/-- C79. `get_belief_at_t` for a strategy that does not predict changes nothing ... -/
theorem c79_get_no_change (pred : ℕ → Inst → Int → Inst × Bool) {h : Hdl} (hs : h.Sorted) (id : ℕ) (t : Int) (ty : GetBelief)
    (hty : ty ≠ .predict ∨ ∃ b, Stored h id t b) : (getBeliefAt pred h id t ty).1 = h := by
  unfold getBeliefAt
  cases hf : h.find id with
  | none => rfl
  | some i =>
    simp only
    rw [getBelief_same, set_self hs hf]
    refine hty.imp (fun x => x) ?_
    rintro ⟨b, hb⟩
    exact ⟨b, (stored_find hs hf t b).mp hb⟩

/-- C79. ... EXACT returns the belief the instance holds at `t`, and fails if there is none or the ID is unknown ... -/
theorem c79_get_exact (pred : ℕ → Inst → Int → Inst × Bool) {h : Hdl} (ho : Ordered h) (id : ℕ) (t : Int) (b : Belief) :
    (getBeliefAt pred h id t .exact).2 = some b ↔ Stored h id t b := by
  unfold getBeliefAt
  cases hf : h.find id with
  | none => simp [stored_none ho.sorted hf]
  | some i =>
    simp only
    rw [getBelief_std _ _ _ _ (by simp), c30_exact _ _ (ho.inst id i hf).bel, stored_find ho.sorted hf]

/-- C79. ... and CLOSEST returns the belief of this instance closest in time, the older of two equally close ones; it fails
exactly if the instance holds no belief or the ID is unknown. -/
theorem c79_get_closest (pred : ℕ → Inst → Int → Inst × Bool) {h : Hdl} (ho : Ordered h) (id : ℕ) (t : Int) :
    ((getBeliefAt pred h id t .closest).2 = none ↔ ∀ k b, ¬ Stored h id k b) ∧
    ∀ b, (getBeliefAt pred h id t .closest).2 = some b ↔
      ∃ k, Stored h id k b ∧ ∀ k' b', Stored h id k' b' → |t - k| ≤ |t - k'| ∧ (|t - k| = |t - k'| → k ≤ k') := by
  unfold getBeliefAt
  cases hf : h.find id with
  | none => simp [stored_none ho.sorted hf]
  | some i =>
    simp only [stored_find ho.sorted hf]
    rw [getBelief_std _ _ _ _ (by simp)]
    obtain ⟨h1, h2⟩ := c30_closest (B := Belief) (P := Unit) ⟨fun b _ => (b, .processed), fun b _ => (b, .processed), fun b _ => (b, false)⟩
      ⟨i.bel, [], 0, 0, false⟩ (ho.inst id i hf).bel t
    refine ⟨h1.trans ⟨fun e k b hb => by rw [show i.bel = [] from e] at hb; exact absurd hb List.not_mem_nil, fun hn => ?_⟩, fun b => (h2 b).trans ?_⟩
    · exact List.eq_nil_iff_forall_not_mem.mpr (fun e he => hn e.1 e.2 he)
    · exact ⟨fun ⟨k, hk, ho⟩ => ⟨k, hk, fun k' b' hb => ho (k', b') hb⟩, fun ⟨k, hk, ho⟩ => ⟨k, hk, fun e he => ho e.1 e.2 he⟩⟩

/-- C79. PREDICT_BELIEF without a belief at `t` runs `predict_to` of this instance alone: the answer is the belief the
prediction stored at `t` (failure if it reports failure), the instance is what the prediction left, all others are
untouched. -/
theorem c79_get_predict (pred : ℕ → Inst → Int → Inst × Bool) {h : Hdl} (ho : Ordered h) (id : ℕ) (t : Int) (i : Inst)
    (hi : (id, i) ∈ h) (hno : ∀ b, ¬ Stored h id t b) (hp : (pred id i t).1.Ord) :
    (∀ b, (getBeliefAt pred h id t .predict).2 = some b ↔ (pred id i t).2 = true ∧ (t, b) ∈ (pred id i t).1.bel) ∧
    ∀ p j, (p, j) ∈ (getBeliefAt pred h id t .predict).1 ↔ if p = id then j = (pred id i t).1 else (p, j) ∈ h := by
  have hf := (SMap.find_eq_some ho.sorted _ _).mpr hi
  have he : i.bel.existAt t = false := by
    rw [← Bool.not_eq_true, Buf.existAt_iff]
    rintro ⟨e, he, rfl⟩
    exact hno e.2 ((stored_find ho.sorted hf _ _).mpr he)
  have hg : getBeliefAt pred h id t .predict =
      (h.set id (pred id i t).1, if (pred id i t).2 then (pred id i t).1.beliefAt t else none) := by
    unfold getBeliefAt Inst.getBelief
    rw [hf]; simp only [he, Bool.not_false, if_true]
  rw [hg]
  constructor
  · intro b
    show (if (pred id i t).2 = true then (pred id i t).1.beliefAt t else none) = some b ↔ _
    have := Buf.absMap_eq_some _ hp.bel t b
    rw [← this]
    by_cases hb : (pred id i t).2 = true
    · simp only [hb, if_true, true_and]; rfl
    · simp [hb]
  · intro p j
    show (p, j) ∈ h.set id (pred id i t).1 ↔ _
    rw [← SMap.find_eq_some (ho.sorted.set _ _), SMap.find_set]
    by_cases hpi : p = id
    · subst hpi; simp; exact eq_comm
    · rw [if_neg (Ne.symm hpi), if_neg hpi]; exact SMap.find_eq_some ho.sorted _ _

/-- C79. An unknown ID: every strategy fails and nothing changes. -/
theorem c79_get_unknown (pred : ℕ → Inst → Int → Inst × Bool) {h : Hdl} (ho : Ordered h) (id : ℕ) (hn : ¬ Registered h id)
    (t : Int) (ty : GetBelief) : getBeliefAt pred h id t ty = (h, none) := by
  unfold getBeliefAt; rw [not_registered ho.sorted hn]

/-- C79. `get_latest_belief` returns the newest belief of the instance; it fails exactly if there is none. -/
theorem c79_latest {h : Hdl} (ho : Ordered h) (id : ℕ) :
    (latestBelief h id = none ↔ ∀ k b, ¬ Stored h id k b) ∧
    ∀ b, latestBelief h id = some b ↔ ∃ k, Stored h id k b ∧ ∀ k' b', Stored h id k' b' → k' ≤ k := by
  unfold latestBelief
  cases hf : h.find id with
  | none => simp [stored_none ho.sorted hf]
  | some i =>
    simp only [stored_find ho.sorted hf]
    have hb := (ho.inst id i hf).bel
    unfold Inst.currentBelief Buf.latest
    rcases List.eq_nil_or_concat i.bel with hnil | ⟨l, e, hc⟩
    · simp [hnil]
    · have hl : i.bel.getLast? = some e := by rw [hc]; simp
      have hlen : i.bel.length ≠ 0 := by rw [hc]; simp
      have hmem : e ∈ i.bel := by rw [hc]; simp
      rw [if_pos hlen, hl]
      simp only [Option.map_some]
      refine ⟨⟨fun x => (by cases x), fun x => absurd hmem (x e.1 e.2)⟩, fun b => ⟨?_, ?_⟩⟩
      · intro he
        have he := Option.some.inj he
        subst he
        exact ⟨e.1, hmem, fun k' b' hk => Buf.SortedKeys.le_getLast hb.sorted hl _ hk⟩
      · rintro ⟨k, hk, hmax⟩
        have h1 := hmax _ _ hmem
        have h2 := Buf.SortedKeys.le_getLast hb.sorted hl _ hk
        have hke : k = e.1 := le_antisymm h2 h1
        subst hke
        have e1 := (Buf.absMap_eq_some _ hb e.1 b).mpr hk
        have e2 := (Buf.absMap_eq_some _ hb e.1 e.2).mpr hmem
        rw [e1] at e2; exact e2.symm

/-- C79. Factors: writing succeeds exactly for a registered ID, is read back, and changes no other factor and no belief. -/
theorem c79_factor {h : Hdl} (ho : Ordered h) (I : ℕ) (t : Int) (J : ℕ) (F : Mat) :
    ((setFactorAt h I t J F).2 = true ↔ Registered h I) ∧
    (¬ Registered h I → (setFactorAt h I t J F).1 = h) ∧ Ordered (setFactorAt h I t J F).1 ∧
    (Registered h I → factorAt (setFactorAt h I t J F).1 I t J = F) ∧
    (∀ p t' q, ¬ (p = I ∧ t' = t ∧ q = J) → factorAt (setFactorAt h I t J F).1 p t' q = factorAt h p t' q) ∧
    ∀ p t' b, Stored (setFactorAt h I t J F).1 p t' b ↔ Stored h p t' b := by
  unfold setFactorAt
  cases hf : h.find I with
  | none =>
    have hn : ¬ Registered h I := by rw [registered_iff ho.sorted, hf]; simp
    exact ⟨by simp [hn], fun _ => rfl, ho, fun hr => absurd hr hn, fun _ _ _ _ => rfl, fun _ _ _ => Iff.rfl⟩
  | some i =>
    have hr : Registered h I := by rw [registered_iff ho.sorted, hf]; rfl
    have hi := ho.inst I i hf
    have ho' := Ordered.set ho I (hi.setCCF t J F)
    simp only
    refine ⟨by simp [hr], fun hn => absurd hr hn, ho', fun _ => ?_, fun p t' q hne => ?_, fun p t' b => ?_⟩
    · unfold factorAt
      rw [SMap.find_set_self]; simp only
      rw [Inst.getCCF_eq, Inst.fac_setCCF hi, if_pos ⟨rfl, rfl⟩]; rfl
    · unfold factorAt
      rw [SMap.find_set]
      by_cases hp : I = p
      · subst hp
        rw [if_pos rfl, hf]; simp only
        rw [Inst.getCCF_eq, Inst.getCCF_eq, Inst.fac_setCCF hi, if_neg (fun x => hne ⟨rfl, x.2, x.1.symm⟩)]
      · rw [if_neg hp]
    · by_cases hp : p = I
      · subst hp
        rw [stored_find ho'.sorted (SMap.find_set_self _ _ _), stored_find ho.sorted hf, Inst.setCCF_bel]
      · exact stored_congr ho.sorted ho'.sorted (SMap.find_set_ne _ (Ne.symm hp) _) t' b

/-- C79. `apply_correction_at_t(ID, t, F)`: exactly the factors of this instance at `t` are multiplied by `F` from the left
(the shapes must fit); an unknown ID fails and nothing changes. -/
theorem c79_correction {h : Hdl} (ho : Ordered h) (id : ℕ) (t : Int) (F : Mat) :
    (¬ Registered h id → correctionAt h id t F = .ok (h, false)) ∧
    (Registered h id → (∀ J, (factorAt h id t J).size ≠ 0 → F.cols = (factorAt h id t J).rows) →
      (∀ i, (id, i) ∈ h → ∀ e ∈ i.ccf, ∀ x ∈ e.2, x.2.size ≠ 0) →
      ∃ h', correctionAt h id t F = .ok (h', true) ∧ Ordered h' ∧
        (∀ p t' b, Stored h' p t' b ↔ Stored h p t' b) ∧
        ∀ p t' J, factorAt h' p t' J =
          if p = id ∧ t' = t ∧ (factorAt h id t J).size ≠ 0 then F * factorAt h id t J else factorAt h p t' J) := by
  constructor
  · intro hn
    unfold correctionAt; rw [not_registered ho.sorted hn]
  · intro hr hdim hne
    rw [registered_iff ho.sorted, Option.isSome_iff_exists] at hr
    obtain ⟨i, hf⟩ := hr
    have hi := ho.inst id i hf
    have hfac : ∀ J, factorAt h id t J = (i.fac J t).getD Mat.empty := by
      intro J; unfold factorAt; rw [hf]; simp only; rw [Inst.getCCF_eq]
    have hsz : ∀ J M, i.fac J t = some M → M.size ≠ 0 := by
      intro J M hM
      unfold Inst.fac at hM
      obtain ⟨b, hb, hM⟩ := Option.bind_eq_some_iff.mp hM
      have := (Buf.absMap_eq_some _ (hi.buf J b hb) t M).mp hM
      exact hne i (SMap.mem_of_find hf) _ (SMap.mem_of_find hb) _ this
    have hiff : ∀ J, (factorAt h id t J).size ≠ 0 ↔ (i.fac J t).isSome = true := by
      intro J
      rw [hfac]
      cases hM : i.fac J t with
      | none => simp [Mat.empty, Mat.size]
      | some M => simpa using hsz J M hM
    have hap := Inst.applyCorrection_ok hi t F (by
      intro J M hM
      have h1 : factorAt h id t J = M := by rw [hfac, hM]; rfl
      have := hdim J (by rw [h1]; exact hsz J M hM)
      rw [h1] at this; exact this)
    have ho' := Ordered.set ho id (hi.mulFac t t F)
    refine ⟨h.set id (i.mulFac t t F), ?_, ho', ?_, ?_⟩
    · unfold correctionAt; rw [hf]; simp only [hap, Res.bind_ok]; rfl
    · intro p t' b
      by_cases hp : p = id
      · subst hp
        rw [stored_find ho'.sorted (SMap.find_set_self _ _ _), stored_find ho.sorted hf]; rfl
      · exact stored_congr ho.sorted ho'.sorted (SMap.find_set_ne _ (Ne.symm hp) _) t' b
    · intro p t' J
      by_cases hp : p = id
      · subst hp
        have h1 : factorAt (h.set p (i.mulFac t t F)) p t' J = ((i.mulFac t t F).fac J t').getD Mat.empty := by
          unfold factorAt; rw [SMap.find_set_self]; simp only; rw [Inst.getCCF_eq]
        have h2 : factorAt h p t' J = (i.fac J t').getD Mat.empty := by
          unfold factorAt; rw [hf]; simp only; rw [Inst.getCCF_eq]
        rw [h1, Inst.fac_mulFac hi, h2]
        simp only [true_and, hiff]
        by_cases hc : t' = t ∧ (i.fac J t).isSome = true
        · rw [if_pos hc, if_pos hc, hfac]
          obtain ⟨M, hM⟩ := Option.isSome_iff_exists.mp hc.2
          rw [hM]; rfl
        · rw [if_neg hc, if_neg hc]
      · rw [if_neg (fun x => hp x.1)]
        unfold factorAt
        rw [SMap.find_set_ne _ (Ne.symm hp)]

/-! ### Several instances at once -/

theorem getBeliefAt_congr (pred : ℕ → Inst → Int → Inst × Bool) {h g : Hdl} {id : ℕ} (e : h.find id = g.find id) (t : Int) (ty : GetBelief) :
    (getBeliefAt pred h id t ty).2 = (getBeliefAt pred g id t ty).2 ∧
    (getBeliefAt pred h id t ty).1.find id = (getBeliefAt pred g id t ty).1.find id := by
  unfold getBeliefAt
  rw [e]
  cases g.find id with
  | none => exact ⟨rfl, e⟩
  | some i => simp

theorem getBeliefAt_ne (pred : ℕ → Inst → Int → Inst × Bool) (h : Hdl) {id p : ℕ} (hp : id ≠ p) (t : Int) (ty : GetBelief) :
    (getBeliefAt pred h id t ty).1.find p = h.find p := by
  unfold getBeliefAt
  cases h.find id with
  | none => rfl
  | some i => exact SMap.find_set_ne _ hp _

theorem zip_mem_left {α β : Type _} {a : α} {b : β} {l : List α} {r : List β} (h : (a, b) ∈ l.zip r) : a ∈ l := (List.of_mem_zip h).1

theorem beliefsLoop_spec (pred : ℕ → Inst → Int → Inst × Bool) (t : Int) (ids : List ℕ) : ∀ (tys : List GetBelief) (h : Hdl) (acc : SMap Belief) (res : Bool),
    ids.Nodup → ids.length ≤ tys.length → (∀ p ∈ ids, acc.find p = none) → acc.Sorted →
    ∃ h' m res', beliefsLoop pred t ids tys h acc res = .ok (h', m, res') ∧ m.Sorted ∧
      (∀ p ty, (p, ty) ∈ ids.zip tys → m.find p = (getBeliefAt pred h p t ty).2 ∧ h'.find p = (getBeliefAt pred h p t ty).1.find p) ∧
      (∀ p, p ∉ ids → m.find p = acc.find p ∧ h'.find p = h.find p) ∧
      (res' = true ↔ res = true ∧ ∀ p ty, (p, ty) ∈ ids.zip tys → ((getBeliefAt pred h p t ty).2).isSome = true) := by
  induction ids with
  | nil =>
    intro tys h acc res _ _ _ hs
    exact ⟨h, acc, res, by cases tys <;> rfl, hs, by simp, by simp, by simp⟩
  | cons id ids ih =>
    intro tys h acc res hnd hlen hacc hs
    cases tys with
    | nil => simp at hlen
    | cons ty tys =>
      have hnd' := List.nodup_cons.mp hnd
      have hne : ∀ p ∈ ids, id ≠ p := fun p hp e => hnd'.1 (e ▸ hp)
      -- the step, whatever the answer is
      have step : ∀ (acc2 : SMap Belief) (r2 : Bool), acc2.Sorted → (∀ p, id ≠ p → acc2.find p = acc.find p) →
          acc2.find id = (getBeliefAt pred h id t ty).2 →
          (r2 = true ↔ res = true ∧ ((getBeliefAt pred h id t ty).2).isSome = true) →
          beliefsLoop pred t (id :: ids) (ty :: tys) h acc res = beliefsLoop pred t ids tys (getBeliefAt pred h id t ty).1 acc2 r2 →
          ∃ h' m res', beliefsLoop pred t (id :: ids) (ty :: tys) h acc res = .ok (h', m, res') ∧ m.Sorted ∧
            (∀ p ty', (p, ty') ∈ (id :: ids).zip (ty :: tys) → m.find p = (getBeliefAt pred h p t ty').2 ∧ h'.find p = (getBeliefAt pred h p t ty').1.find p) ∧
            (∀ p, p ∉ id :: ids → m.find p = acc.find p ∧ h'.find p = h.find p) ∧
            (res' = true ↔ res = true ∧ ∀ p ty', (p, ty') ∈ (id :: ids).zip (ty :: tys) → ((getBeliefAt pred h p t ty').2).isSome = true) := by
        intro acc2 r2 hs2 hf2 hid hr2 heq
        obtain ⟨h', m, res', e1, e2, e3, e4, e5⟩ := ih tys (getBeliefAt pred h id t ty).1 acc2 r2 hnd'.2 (by simpa using hlen)
          (fun p hp => by rw [hf2 p (hne p hp)]; exact hacc p (List.mem_cons_of_mem _ hp)) hs2
        have cg : ∀ p ∈ ids, ∀ ty', (getBeliefAt pred (getBeliefAt pred h id t ty).1 p t ty').2 = (getBeliefAt pred h p t ty').2 ∧
            (getBeliefAt pred (getBeliefAt pred h id t ty).1 p t ty').1.find p = (getBeliefAt pred h p t ty').1.find p :=
          fun p hp ty' => getBeliefAt_congr pred (getBeliefAt_ne pred h (hne p hp) t ty) t ty'
        refine ⟨h', m, res', heq.trans e1, e2, ?_, ?_, ?_⟩
        · intro p ty' hp
          rw [List.zip_cons_cons, List.mem_cons] at hp
          rcases hp with hp | hp
          · obtain ⟨rfl, rfl⟩ := Prod.mk.inj hp
            obtain ⟨a1, a2⟩ := e4 p hnd'.1
            exact ⟨a1.trans hid, a2⟩
          · have hpi := zip_mem_left hp
            obtain ⟨a1, a2⟩ := e3 p ty' hp
            exact ⟨a1.trans (cg p hpi ty').1, a2.trans (cg p hpi ty').2⟩
        · intro p hp
          rw [List.mem_cons, not_or] at hp
          obtain ⟨a1, a2⟩ := e4 p hp.2
          exact ⟨a1.trans (hf2 p (Ne.symm hp.1)), a2.trans (getBeliefAt_ne pred h (Ne.symm hp.1) t ty)⟩
        · rw [e5, hr2]
          constructor
          · rintro ⟨⟨a1, a2⟩, a3⟩
            refine ⟨a1, fun p ty' hp => ?_⟩
            rw [List.zip_cons_cons, List.mem_cons] at hp
            rcases hp with hp | hp
            · obtain ⟨rfl, rfl⟩ := Prod.mk.inj hp; exact a2
            · rw [← (cg p (zip_mem_left hp) ty').1]; exact a3 p ty' hp
          · rintro ⟨a1, a2⟩
            refine ⟨⟨a1, a2 id ty (by simp)⟩, fun p ty' hp => ?_⟩
            rw [(cg p (zip_mem_left hp) ty').1]; exact a2 p ty' (by rw [List.zip_cons_cons]; exact List.mem_cons_of_mem _ hp)
      cases hx : (getBeliefAt pred h id t ty).2 with
      | none =>
        rw [hx] at step
        refine step acc (res && false) hs (fun _ _ => rfl) (hacc id (by simp)) (by simp) ?_
        rw [beliefsLoop]; simp only [hx]
      | some b =>
        rw [hx] at step
        refine step (acc.emplace id b) (res && true) (hs.emplace id b) (fun p hp => ?_) ?_ (by simp) ?_
        · rw [SMap.find_emplace, if_neg (fun x => hp x.1)]
        · rw [SMap.find_emplace, if_pos ⟨rfl, hacc id (by simp)⟩]
        · rw [beliefsLoop]; simp only [hx]

/-- C79. `get_beliefs_at_t` for different IDs, with a strategy for each, is one `get_belief_at_t` per ID: the map holds
exactly the successful answers, the result is true exactly if all succeeded, and every instance is left as by its own
request; instances that were not asked are untouched. -/
theorem c79_beliefs (pred : ℕ → Inst → Int → Inst × Bool) (h : Hdl) (ids : List ℕ) (tys : List GetBelief) (t : Int)
    (hnd : ids.Nodup) (hlen : ids.length ≤ tys.length) :
    ∃ h' m res, beliefsAt pred h ids tys t = .ok (h', m, res) ∧ m.Sorted ∧
      (∀ p ty, (p, ty) ∈ ids.zip tys → m.find p = (getBeliefAt pred h p t ty).2 ∧ h'.find p = (getBeliefAt pred h p t ty).1.find p) ∧
      (∀ p, p ∉ ids → m.find p = none ∧ h'.find p = h.find p) ∧
      (res = true ↔ ∀ p ty, (p, ty) ∈ ids.zip tys → ((getBeliefAt pred h p t ty).2).isSome = true) := by
  obtain ⟨h', m, res, e1, e2, e3, e4, e5⟩ := beliefsLoop_spec pred t ids tys h [] true hnd hlen (fun _ _ => rfl) List.Pairwise.nil
  exact ⟨h', m, res, e1, e2, e3, e4, by simpa using e5⟩

/-- C79. EXACT requests for any list of IDs, repeated or unknown ones included: the map holds exactly the beliefs stored at
`t`, the result is true exactly if every ID has one, nothing changes. -/
theorem c79_beliefs_exact (pred : ℕ → Inst → Int → Inst × Bool) {h : Hdl} (ho : Ordered h) (ids : List ℕ) (t : Int) :
    ∃ m res, beliefsAt pred h ids (List.replicate ids.length .exact) t = .ok (h, m, res) ∧
      (∀ p b, m.find p = some b ↔ p ∈ ids ∧ Stored h p t b) ∧
      (res = true ↔ ∀ p ∈ ids, ∃ b, Stored h p t b) := by
  have main : ∀ (ids : List ℕ) (acc : SMap Belief) (res : Bool), (∀ p b, acc.find p = some b → Stored h p t b) →
      ∃ m res', beliefsLoop pred t ids (List.replicate ids.length .exact) h acc res = .ok (h, m, res') ∧
        (∀ p b, m.find p = some b ↔ (p ∈ ids ∧ Stored h p t b) ∨ acc.find p = some b) ∧
        (res' = true ↔ res = true ∧ ∀ p ∈ ids, ∃ b, Stored h p t b) := by
    intro ids
    induction ids with
    | nil => intro acc res _; exact ⟨acc, res, rfl, by simp, by simp⟩
    | cons id ids ih =>
      intro acc res hacc
      have hsame := c79_get_no_change pred ho.sorted id t .exact (Or.inl (by simp))
      have hex := c79_get_exact pred ho id t
      rw [List.length_cons, List.replicate_succ, beliefsLoop]
      simp only [hsame]
      cases hx : (getBeliefAt pred h id t .exact).2 with
      | none =>
        have hno : ∀ b, ¬ Stored h id t b := fun b hb => by rw [(hex b).mpr hb] at hx; cases hx
        obtain ⟨m, res', e1, e2, e3⟩ := ih acc (res && false) hacc
        refine ⟨m, res', e1, fun p b => (e2 p b).trans ?_, e3.trans ?_⟩
        · rw [List.mem_cons]
          constructor
          · rintro (⟨a, b⟩ | a)
            · exact Or.inl ⟨Or.inr a, b⟩
            · exact Or.inr a
          · rintro (⟨rfl | a, b⟩ | a)
            · exact absurd b (hno _)
            · exact Or.inl ⟨a, b⟩
            · exact Or.inr a
        · constructor
          · rintro ⟨a, _⟩; simp at a
          · rintro ⟨_, a⟩; obtain ⟨b, hb⟩ := a id (by simp); exact absurd hb (hno b)
      | some b0 =>
        have hst := (hex b0).mp hx
        have huniq : ∀ b, Stored h id t b → b = b0 := fun b hb => by
          have := (hex b).mpr hb; rw [hx] at this; exact (Option.some.inj this).symm
        have hacc2 : ∀ p b, (acc.emplace id b0).find p = some b → Stored h p t b := by
          intro p b hb
          rw [SMap.find_emplace] at hb
          split at hb
          · rename_i hc; rw [← Option.some.inj hb, ← hc.1]; exact hst
          · exact hacc p b hb
        obtain ⟨m, res', e1, e2, e3⟩ := ih (acc.emplace id b0) (res && true) hacc2
        refine ⟨m, res', e1, fun p b => (e2 p b).trans ?_, e3.trans ?_⟩
        · rw [List.mem_cons, SMap.find_emplace]
          constructor
          · rintro (⟨a, c⟩ | a)
            · exact Or.inl ⟨Or.inr a, c⟩
            · split at a
              · rename_i hc; rw [← Option.some.inj a]; exact Or.inl ⟨Or.inl hc.1.symm, hc.1 ▸ hst⟩
              · exact Or.inr a
          · rintro (⟨rfl | a, c⟩ | a)
            · right
              cases hf : acc.find p with
              | none => rw [if_pos ⟨rfl, rfl⟩, huniq b c]
              | some b1 => rw [if_neg (by simp), huniq b1 (hacc p b1 hf), huniq b c]
            · exact Or.inl ⟨a, c⟩
            · right
              rw [if_neg]
              · exact a
              · rintro ⟨rfl, hn⟩; rw [hn] at a; cases a
        · rw [Bool.and_true]
          constructor
          · rintro ⟨a, c⟩
            refine ⟨a, fun p hp => ?_⟩
            rcases List.mem_cons.mp hp with rfl | hp
            · exact ⟨b0, hst⟩
            · exact c p hp
          · rintro ⟨a, c⟩
            exact ⟨a, fun p hp => c p (List.mem_cons_of_mem _ hp)⟩
  obtain ⟨m, res, e1, e2, e3⟩ := main ids [] true (by simp)
  exact ⟨m, res, e1, fun p b => by rw [e2]; simp, by rw [e3]; simp⟩

/-- C79. Fewer strategies than IDs: the call throws (`std::vector::at`), whatever is registered. -/
theorem c79_beliefs_too_few (pred : ℕ → Inst → Int → Inst × Bool) (h : Hdl) (ids : List ℕ) (tys : List GetBelief) (t : Int)
    (hlen : tys.length < ids.length) : beliefsAt pred h ids tys t = .throws := by
  unfold beliefsAt
  generalize hacc : ([] : SMap Belief) = acc
  generalize true = res
  clear hacc
  induction ids generalizing tys h acc res with
  | nil => simp at hlen
  | cons id ids ih =>
    cases tys with
    | nil => rfl
    | cons ty tys =>
      rw [beliefsLoop]
      split
      · exact ih _ _ (by simpa using hlen) _ _
      · exact ih _ _ (by simpa using hlen) _ _

/-! ## C80: an agent asking other agents -/

/-- What the other agents answer at `t`: `ans p ty` for instance `p` (`none`: the request fails). A request for several
instances returns exactly the successful answers and reports whether all succeeded. -/
structure Serves {W : Type _} (R : Remote W) (w : W) (t : Int) (ans : ℕ → GetBelief → Option Belief) : Prop where
  one : ∀ p ty, (R.belief w p t ty).2 = ans p ty
  many : ∀ ids tys, ids.Nodup → ids.length = tys.length →
    (∀ p ty, (p, ty) ∈ ids.zip tys → (R.beliefs w ids tys t).2.1.find p = ans p ty) ∧
    (∀ p, p ∉ ids → (R.beliefs w ids tys t).2.1.find p = none) ∧
    ((R.beliefs w ids tys t).2.2 = true ↔ ∀ p ty, (p, ty) ∈ ids.zip tys → (ans p ty).isSome = true)

/-- The other agents as one handler `g`: the requests are its own accessors. -/
def ofHandler (pred : ℕ → Inst → Int → Inst × Bool) : Remote Hdl where
  belief g p t ty := getBeliefAt pred g p t ty
  beliefs g ids tys t := match beliefsAt pred g ids tys t with
    | .ok x => x
    | _ => (g, [], false)
  propSensor := fun _ => 0

/-- Any handler serves requests in this sense. -/
theorem ofHandler_serves (pred : ℕ → Inst → Int → Inst × Bool) (g : Hdl) (t : Int) :
    Serves (ofHandler pred) g t (fun p ty => (getBeliefAt pred g p t ty).2) where
  one _ _ := rfl
  many ids tys hnd hlen := by
    obtain ⟨h', m, res, e1, _, e3, e4, e5⟩ := c79_beliefs pred g ids tys t hnd (le_of_eq hlen)
    simp only [ofHandler, e1]
    exact ⟨fun p ty hp => (e3 p ty hp).1, fun p hp => (e4 p hp).1, e5⟩

/-- What this agent and the others know: the owner answers. -/
def owner (pred : ℕ → Inst → Int → Inst × Bool) (h : Hdl) (t : Int) (ans : ℕ → GetBelief → Option Belief) (p : ℕ) (ty : GetBelief) : Option Belief :=
  if (h.find p).isSome then (getBeliefAt pred h p t ty).2 else ans p ty

/-- C80. One belief: the owner's answer. A request about an own instance sends no message (`w` stays), one about another
agent's changes nothing here. -/
theorem c80_belief {W : Type _} (R : Remote W) (pred : ℕ → Inst → Int → Inst × Bool) {h : Hdl} (ho : Ordered h) {w : W} {t : Int}
    {ans : ℕ → GetBelief → Option Belief} (hR : Serves R w t ans) (p : ℕ) (ty : GetBelief) :
    (Registered h p → beliefAny R pred h w p t ty = ((getBeliefAt pred h p t ty).1, w, (getBeliefAt pred h p t ty).2)) ∧
    (¬ Registered h p → (beliefAny R pred h w p t ty).1 = h ∧ (beliefAny R pred h w p t ty).2.2 = ans p ty) := by
  unfold beliefAny
  constructor
  · intro hr
    rw [registered_iff ho.sorted] at hr
    rw [if_pos hr]
  · intro hr
    rw [registered_iff ho.sorted] at hr
    rw [if_neg hr]
    exact ⟨rfl, hR.one p ty⟩

theorem splitIDs_spec (h : Hdl) (ids : List ℕ) : ∀ (tys : List GetBelief) (a : List ℕ × List GetBelief × List ℕ × List GetBelief),
    ids.length ≤ tys.length → a.1.length = a.2.1.length → a.2.2.1.length = a.2.2.2.length →
    ∃ s, splitIDs h ids tys a = .ok s ∧ s.1.length = s.2.1.length ∧ s.2.2.1.length = s.2.2.2.length ∧
      s.1 = a.1 ++ ids.filter (fun p => (h.find p).isSome) ∧ s.2.2.1 = a.2.2.1 ++ ids.filter (fun p => !(h.find p).isSome) ∧
      s.1.zip s.2.1 = a.1.zip a.2.1 ++ (ids.zip tys).filter (fun x => (h.find x.1).isSome) ∧
      s.2.2.1.zip s.2.2.2 = a.2.2.1.zip a.2.2.2 ++ (ids.zip tys).filter (fun x => !(h.find x.1).isSome) := by
  induction ids with
  | nil => intro tys a _ h1 h2; exact ⟨a, by cases tys <;> rfl, h1, h2, by simp, by simp, by simp, by simp⟩
  | cons id ids ih =>
    intro tys a hlen h1 h2
    cases tys with
    | nil => simp at hlen
    | cons ty tys =>
      rw [splitIDs]
      by_cases hp : (h.find id).isSome = true
      · rw [if_pos hp]
        obtain ⟨s, e1, e2, e3, e4, e5, e6, e7⟩ := ih tys (a.1 ++ [id], a.2.1 ++ [ty], a.2.2.1, a.2.2.2) (by simpa using hlen) (by simp [h1]) h2
        refine ⟨s, e1, e2, e3, ?_, ?_, ?_, ?_⟩
        · rw [e4, List.filter_cons_of_pos (by simpa using hp)]; simp
        · rw [e5, List.filter_cons_of_neg (by simp [hp])]
        · rw [e6, List.zip_cons_cons, List.filter_cons_of_pos (by simpa using hp), List.zip_append h1]; simp
        · rw [e7, List.zip_cons_cons, List.filter_cons_of_neg (by simp [hp])]
      · rw [if_neg hp]
        obtain ⟨s, e1, e2, e3, e4, e5, e6, e7⟩ := ih tys (a.1, a.2.1, a.2.2.1 ++ [id], a.2.2.2 ++ [ty]) (by simpa using hlen) h1 (by simp [h2])
        refine ⟨s, e1, e2, e3, ?_, ?_, ?_, ?_⟩
        · rw [e4, List.filter_cons_of_neg (by simpa using hp)]
        · rw [e5, List.filter_cons_of_pos (by simpa using hp)]; simp
        · rw [e6, List.zip_cons_cons, List.filter_cons_of_neg (by simpa using hp)]
        · rw [e7, List.zip_cons_cons, List.filter_cons_of_pos (by simpa using hp), List.zip_append h2]; simp

theorem find_insertAll {V : Type _} (n : SMap V) : ∀ (m : SMap V) (k : ℕ),
    (insertAll m n).find k = match m.find k with
      | some v => some v
      | none => n.find k := by
  induction n with
  | nil => intro m k; simp only [insertAll, List.foldl_nil, SMap.find_nil]; cases m.find k <;> rfl
  | cons e n ih =>
    intro m k
    have := ih (m.emplace e.1 e.2) k
    unfold insertAll at this ⊢
    rw [List.foldl_cons, this, SMap.find_emplace, SMap.find_cons]
    by_cases he : e.1 = k
    · subst he
      cases hf : m.find e.1 with
      | none => simp
      | some v => simp
    · rw [if_neg (fun x => he x.1), if_neg he]

/-- C80. Several beliefs, of own instances and of other agents' in any mix and order: the map holds exactly the successful
answers of the owners, and the result is true exactly if all succeeded. Own instances are left as by their own requests. -/
theorem c80_beliefs {W : Type _} (R : Remote W) (pred : ℕ → Inst → Int → Inst × Bool) {h : Hdl} {w : W} {t : Int}
    {ans : ℕ → GetBelief → Option Belief} (hR : Serves R w t ans) (ids : List ℕ) (tys : List GetBelief)
    (hnd : ids.Nodup) (hlen : ids.length ≤ tys.length) :
    ∃ h' w' m res, beliefsAny R pred h w ids tys t = .ok (h', w', m, res) ∧
      (∀ p ty, (p, ty) ∈ ids.zip tys → m.find p = owner pred h t ans p ty) ∧
      (∀ p, p ∉ ids → m.find p = none) ∧
      (res = true ↔ ∀ p ty, (p, ty) ∈ ids.zip tys → (owner pred h t ans p ty).isSome = true) ∧
      (∀ p ty, (p, ty) ∈ ids.zip tys → h'.find p = (getBeliefAt pred h p t ty).1.find p) ∧
      (∀ p, p ∉ ids → h'.find p = h.find p) := by
  obtain ⟨s, e1, e2, e3, e4, e5, e6, e7⟩ := splitIDs_spec h ids tys ([], [], [], []) hlen rfl rfl
  simp only [List.nil_append, List.zip_nil_left] at e4 e5 e6 e7
  have ml : ∀ p ty, (p, ty) ∈ s.1.zip s.2.1 ↔ (p, ty) ∈ ids.zip tys ∧ (h.find p).isSome = true := by
    intro p ty; rw [e6, List.mem_filter]
  have mr : ∀ p ty, (p, ty) ∈ s.2.2.1.zip s.2.2.2 ↔ (p, ty) ∈ ids.zip tys ∧ ¬ (h.find p).isSome = true := by
    intro p ty; rw [e7, List.mem_filter]; simp
  -- the local part
  obtain ⟨h', ml', rl, a1, a2, a3, a4, a5⟩ : ∃ h' m res,
      beliefsOwn pred h s.1 s.2.1 t = .ok (h', m, res) ∧ m.Sorted ∧
      (∀ p ty, (p, ty) ∈ s.1.zip s.2.1 → m.find p = (getBeliefAt pred h p t ty).2 ∧ h'.find p = (getBeliefAt pred h p t ty).1.find p) ∧
      (∀ p, p ∉ s.1 → m.find p = none ∧ h'.find p = h.find p) ∧
      (res = true ↔ ∀ p ty, (p, ty) ∈ s.1.zip s.2.1 → ((getBeliefAt pred h p t ty).2).isSome = true) := by
    unfold beliefsOwn
    by_cases hz : s.1.length ≠ 0
    · rw [if_pos hz]
      exact c79_beliefs pred h s.1 s.2.1 t (by rw [e4]; exact hnd.filter _) (le_of_eq e2)
    · rw [if_neg hz]
      have hz' : s.1 = [] := List.eq_nil_of_length_eq_zero (not_not.mp hz)
      exact ⟨h, [], true, rfl, List.Pairwise.nil, by simp [hz'], by simp, by simp [hz']⟩
  -- the remote part
  obtain ⟨w', mr', rr, b1, b3, b4, b5⟩ : ∃ w' m res,
      (if s.2.2.1.length ≠ 0 then R.beliefs w s.2.2.1 s.2.2.2 t else (w, [], true)) = (w', m, res) ∧
      (∀ p ty, (p, ty) ∈ s.2.2.1.zip s.2.2.2 → SMap.find m p = ans p ty) ∧
      (∀ p, p ∉ s.2.2.1 → SMap.find m p = none) ∧
      (res = true ↔ ∀ p ty, (p, ty) ∈ s.2.2.1.zip s.2.2.2 → (ans p ty).isSome = true) := by
    by_cases hz : s.2.2.1.length ≠ 0
    · rw [if_pos hz]
      obtain ⟨c1, c2, c3⟩ := hR.many s.2.2.1 s.2.2.2 (by rw [e5]; exact hnd.filter _) e3
      exact ⟨_, _, _, rfl, c1, c2, c3⟩
    · rw [if_neg hz]
      have hz' : s.2.2.1 = [] := List.eq_nil_of_length_eq_zero (not_not.mp hz)
      exact ⟨w, [], true, rfl, by simp [hz'], by simp, by simp [hz']⟩
  have hfind : ∀ p, (insertAll (insertAll [] ml') mr').find p = match SMap.find ml' p with
      | some v => some v
      | none => SMap.find mr' p := by
    intro p; rw [find_insertAll, find_insertAll]; simp only [SMap.find_nil]; cases SMap.find ml' p <;> rfl
  have hrun : beliefsAny R pred h w ids tys t = .ok (h', w', insertAll (insertAll [] ml') mr', rl && rr) := by
    unfold beliefsAny
    rw [e1, Res.bind_ok, a1, Res.bind_ok]
    simp only [b1]
  refine ⟨h', w', _, _, hrun, ?_, ?_, ?_, ?_, ?_⟩
  · intro p ty hp
    rw [hfind]
    unfold owner
    by_cases hl : (h.find p).isSome = true
    · rw [if_pos hl, (a3 p ty ((ml p ty).mpr ⟨hp, hl⟩)).1]
      cases hx : (getBeliefAt pred h p t ty).2 with
      | some b => rfl
      | none =>
        simp only
        refine b4 p ?_
        rw [e5, List.mem_filter]; simp [hl]
    · rw [if_neg hl, (a4 p (by rw [e4, List.mem_filter]; simp [hl])).1]
      exact b3 p ty ((mr p ty).mpr ⟨hp, hl⟩)
  · intro p hp
    rw [hfind, (a4 p (by rw [e4, List.mem_filter]; exact fun x => hp x.1)).1]
    exact b4 p (by rw [e5, List.mem_filter]; exact fun x => hp x.1)
  · rw [Bool.and_eq_true, a5, b5]
    constructor
    · rintro ⟨c1, c2⟩ p ty hp
      unfold owner
      by_cases hl : (h.find p).isSome = true
      · rw [if_pos hl]; exact c1 p ty ((ml p ty).mpr ⟨hp, hl⟩)
      · rw [if_neg hl]; exact c2 p ty ((mr p ty).mpr ⟨hp, hl⟩)
    · intro c
      constructor
      · intro p ty hp
        obtain ⟨hp, hl⟩ := (ml p ty).mp hp
        have := c p ty hp; unfold owner at this; rw [if_pos hl] at this; exact this
      · intro p ty hp
        obtain ⟨hp, hl⟩ := (mr p ty).mp hp
        have := c p ty hp; unfold owner at this; rw [if_neg hl] at this; exact this
  · intro p ty hp
    by_cases hl : (h.find p).isSome = true
    · exact (a3 p ty ((ml p ty).mpr ⟨hp, hl⟩)).2
    · rw [(a4 p (by rw [e4, List.mem_filter]; simp [hl])).2]
      have hn : h.find p = none := by simpa using hl
      unfold getBeliefAt; rw [hn]; simp only; rw [hn]
  · intro p hp
    exact (a4 p (by rw [e4, List.mem_filter]; exact fun x => hp x.1)).2

/-- C80. So it does not matter where an instance lives: asked through this agent (handler `h`, the others a handler `g`) the
answer is the one of a single handler `u` holding all of them. -/
theorem c80_location_transparent (pred : ℕ → Inst → Int → Inst × Bool) {h g u : Hdl}
    (hu : ∀ p, u.find p = if (h.find p).isSome then h.find p else g.find p) (ids : List ℕ) (tys : List GetBelief) (t : Int)
    (hnd : ids.Nodup) (hlen : ids.length ≤ tys.length) :
    ∃ h' g' m u' m' res, beliefsAny (ofHandler pred) pred h g ids tys t = .ok (h', g', m, res) ∧
      beliefsAt pred u ids tys t = .ok (u', m', res) ∧ ∀ p, m.find p = m'.find p := by
  obtain ⟨h', g', m, r, e1, e2, e3, e4, -, -⟩ := c80_beliefs (ofHandler pred) pred (h := h) (ofHandler_serves pred g t) ids tys hnd hlen
  obtain ⟨u', m', r', f1, -, f2, f3, f4⟩ := c79_beliefs pred u ids tys t hnd hlen
  have hown : ∀ p ty, owner pred h t (fun p ty => (getBeliefAt pred g p t ty).2) p ty = (getBeliefAt pred u p t ty).2 := by
    intro p ty
    unfold owner
    split
    · rename_i hl
      exact (getBeliefAt_congr pred (by rw [hu, if_pos hl]) t ty).1
    · rename_i hl
      exact (getBeliefAt_congr pred (by rw [hu, if_neg hl]) t ty).1
  have hr : r = r' := by
    rw [Bool.eq_iff_iff, e4, f4]; simp only [hown]
  subst hr
  refine ⟨h', g', m, u', m', r, e1, f1, fun p => ?_⟩
  by_cases hp : p ∈ ids
  · obtain ⟨j, hj, rfl⟩ := List.mem_iff_getElem.mp hp
    have hz : (ids[j], tys[j]'(by omega)) ∈ ids.zip tys := List.mem_iff_getElem.mpr ⟨j, by simp; omega, by simp⟩
    rw [e2 _ _ hz, (f2 _ _ hz).1, hown]
  · rw [e3 p hp, (f3 p hp).1]

/-- C80. Whatever the agent handler returns, an answer about an own instance is this agent's. -/
theorem c80_local_wins {W : Type _} (R : Remote W) (pred : ℕ → Inst → Int → Inst × Bool) {h : Hdl} (w : W) (t : Int) (ids : List ℕ)
    (tys : List GetBelief) (hnd : ids.Nodup) (hlen : ids.length ≤ tys.length) (p : ℕ) (ty : GetBelief) (hp : (p, ty) ∈ ids.zip tys)
    (hl : (h.find p).isSome) (b : Belief) (hb : (getBeliefAt pred h p t ty).2 = some b) :
    ∃ h' w' m res, beliefsAny R pred h w ids tys t = .ok (h', w', m, res) ∧ m.find p = some b := by
  obtain ⟨s, e1, e2, e3, e4, e5, e6, e7⟩ := splitIDs_spec h ids tys ([], [], [], []) hlen rfl rfl
  simp only [List.nil_append, List.zip_nil_left] at e4 e5 e6 e7
  have hmem : (p, ty) ∈ s.1.zip s.2.1 := by rw [e6, List.mem_filter]; exact ⟨hp, hl⟩
  have hz : s.1.length ≠ 0 := by
    have := List.length_pos_of_mem (zip_mem_left hmem); omega
  obtain ⟨h', m, res, a1, -, a3, -, -⟩ := c79_beliefs pred h s.1 s.2.1 t (by rw [e4]; exact hnd.filter _) (le_of_eq e2)
  have hrun : beliefsAny R pred h w ids tys t = .ok (h', (if s.2.2.1.length ≠ 0 then R.beliefs w s.2.2.1 s.2.2.2 t else (w, [], true)).1,
      insertAll (insertAll [] m) (if s.2.2.1.length ≠ 0 then R.beliefs w s.2.2.1 s.2.2.2 t else (w, [], true)).2.1,
      res && (if s.2.2.1.length ≠ 0 then R.beliefs w s.2.2.1 s.2.2.2 t else (w, [], true)).2.2) := by
    unfold beliefsAny beliefsOwn
    rw [e1, Res.bind_ok, if_pos hz, a1, Res.bind_ok]
  refine ⟨_, _, _, _, hrun, ?_⟩
  rw [find_insertAll, find_insertAll]
  simp only [SMap.find_nil, (a3 p ty hmem).1, hb]

/-- C80. A lookup in the agent's own registry comes first, also for types; ID 0 never asks the agent handler's tables. -/
theorem c80_type (T : Agents.Tables) (types : SMap String) (id : ℕ) :
    (∀ s, types.find id = some s → typeByID T types id = s) ∧
    (types.find id = none → id ≠ 0 → typeByID T types id = Agents.typeById T id) ∧
    (types.find id = none → id = 0 → typeByID T types id = "") := by
  unfold typeByID typeOwn
  refine ⟨fun s hs => ?_, fun hn h0 => ?_, fun hn h0 => ?_⟩
  · rw [hs]; simp
  · rw [hn]; simp [h0]
  · rw [hn]; simp [h0]

/-- The propagation sensor of an own instance (or of ID 0) is the handler's own sensor; any other ID is asked for at the
agent handler. -/
theorem c80_prop_sensor {W : Type _} (R : Remote W) (own : ℕ) {h : Hdl} (ho : Ordered h) (id : ℕ) :
    (Registered h id → propSensorID R own h id = own) ∧ propSensorID R own h 0 = own ∧
    (¬ Registered h id → id ≠ 0 → propSensorID R own h id = R.propSensor id) := by
  unfold propSensorID
  refine ⟨fun hr => ?_, by simp, fun hn h0 => ?_⟩
  · rw [registered_iff ho.sorted] at hr
    rw [if_pos (Or.inr hr)]
  · rw [registered_iff ho.sorted] at hn
    rw [if_neg (by tauto)]

/-! ## The premises are met -/

/-- Two instances with beliefs; one stores two. -/
def exH : Hdl := [(1, ⟨[(5, ⟨Mat.zero 1 1, one 1, 5, false, true⟩), (9, ⟨one 1, one 1, 9, false, true⟩)], [(2, [(5, one 1)])], 1⟩),
  (2, ⟨[(5, ⟨one 1, one 1, 5, false, true⟩)], [(1, [(5, one 1)])], 1⟩)]

theorem exH_ordered : Ordered exH where
  sorted := by simp [SMap.Sorted, exH]
  inst := by
    intro p i hi
    have hm := SMap.mem_of_find hi
    simp only [exH, List.mem_cons, List.not_mem_nil, or_false, Prod.mk.injEq] at hm
    rcases hm with ⟨rfl, rfl⟩ | ⟨rfl, rfl⟩
    · refine ⟨by simp [Buf.StrictKeys], by simp [SMap.Sorted], ?_⟩
      intro J b hb
      have := SMap.mem_of_find hb
      simp at this; rw [this.2]; simp [Buf.StrictKeys]
    · refine ⟨by simp [Buf.StrictKeys], by simp [SMap.Sorted], ?_⟩
      intro J b hb
      have := SMap.mem_of_find hb
      simp at this; rw [this.2]; simp [Buf.StrictKeys]

example : Ordered exH ∧ Registered exH 1 ∧ Registered exH 2 ∧ ¬ Registered exH 3 ∧ (∃ b, Stored exH 1 9 b) ∧
    (∀ b, ¬ Stored exH 2 9 b) ∧ (factorAt exH 1 5 2).size ≠ 0 := by
  refine ⟨exH_ordered, ⟨_, by simp only [exH, List.mem_cons, true_or]; exact Or.inl rfl⟩, ⟨_, by simp only [exH, List.mem_cons]; exact Or.inr (Or.inl rfl)⟩, ?_, ?_, ?_, ?_⟩
  · rintro ⟨i, hi⟩; simp [exH] at hi
  · exact ⟨_, _, by simp only [exH, List.mem_cons]; exact Or.inl rfl, by simp only [List.mem_cons]; exact Or.inr (Or.inl rfl)⟩
  · rintro b ⟨i, hi, hb⟩
    simp only [exH, List.mem_cons, List.not_mem_nil, or_false, Prod.mk.injEq] at hi
    rcases hi with ⟨h, _⟩ | ⟨_, rfl⟩
    · cases h
    · simp at hb
  · simp [factorAt, exH, SMap.find, Inst.getCCF, Buf.getAt, Mat.size, one]

/-- An agent with instance 1, another with instance 2; one handler holding both. -/
example : ([1, 2] : List ℕ).Nodup ∧ (∀ p, exH.find p = if (SMap.find (exH.take 1) p).isSome then SMap.find (exH.take 1) p else SMap.find (exH.drop 1) p) := by
  refine ⟨by decide, fun p => ?_⟩
  simp only [exH, List.take, List.drop, SMap.find_cons, SMap.find_nil]
  by_cases h1 : 1 = p
  · simp [h1]
  · simp [h1]

end Ikf.Access
