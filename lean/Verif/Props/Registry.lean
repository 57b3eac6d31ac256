import Verif.Model.Registry
import Verif.Lemmas.SMap
import Mathlib.Tactic

/-!
# C42: the registry behaves like a finite map

`registered` is the specification: who is registered under an ID after a history of calls (newest first).
-/

namespace Ikf.Registry

/-- Specification: the instance registered under `k`. The first of several instances with the same ID wins. -/
def registered (id : ℕ → ℕ) : List Op → ℕ → Option ℕ
  | [], _ => none
  | .add p :: h, k => if id p = k then some ((registered id h k).getD p) else registered id h k
  | .remove j :: h, k => if j = k then none else registered id h k
  | _ :: h, k => registered id h k

/-- Specification: the handler's horizon. -/
def horizonOf (hor : ℚ) : List Op → ℚ
  | [] => hor
  | .setHorizon x :: _ => x
  | _ :: h => horizonOf hor h

variable (id : ℕ → ℕ) (heap : ℕ → Obj) (hor : ℚ)

theorem upd_dict (s : St) (p f) : (s.upd p f).dict = s.dict := rfl
theorem upd_hor (s : St) (p f) : (s.upd p f).hor = s.hor := rfl

/-- The loop of `set_horizon`. -/
theorem foldl_upd (l : SMap ℕ) (s : St) :
    let r := l.foldl (fun a e => a.upd e.2 (fun o => { o with hor := a.hor })) s
    r.dict = s.dict ∧ r.hor = s.hor ∧ (∀ q, r.heap q = { s.heap q with hor := if q ∈ l.map (·.2) then s.hor else (s.heap q).hor }) := by
  induction l generalizing s with
  | nil => refine ⟨rfl, rfl, fun q => ?_⟩; simp
  | cons e l ih =>
    obtain ⟨h1, h2, h3⟩ := ih (s.upd e.2 (fun o => { o with hor := s.hor }))
    refine ⟨h1, h2, fun q => ?_⟩
    have := h3 q
    simp only [List.foldl_cons]
    rw [this]
    simp only [St.upd, List.map_cons, List.mem_cons]
    by_cases hq : q = e.2
    · subst hq; by_cases hl : e.2 ∈ l.map (·.2) <;> simp [hl]
    · by_cases hl : q ∈ l.map (·.2) <;> simp [hq, hl]

theorem setHorizon_spec (s : St) (x : ℚ) : (setHorizon s x).dict = s.dict ∧ (setHorizon s x).hor = x ∧
    ∀ q, (setHorizon s x).heap q = { s.heap q with hor := if q ∈ s.dict.map (·.2) then x else (s.heap q).hor } :=
  foldl_upd s.dict { s with hor := x }

theorem run_inv (h : List Op) : (run id heap hor h).dict.Sorted ∧ (run id heap hor h).hor = horizonOf hor h ∧
    ∀ k, (run id heap hor h).dict.find k = registered id h k ∧ ∀ p, registered id h k = some p → id p = k := by
  induction h with
  | nil => exact ⟨List.Pairwise.nil, rfl, fun k => ⟨rfl, fun p hp => by simp [registered] at hp⟩⟩
  | cons op h ih =>
    obtain ⟨i1, i2, i3⟩ := ih
    set s := run id heap hor h with hs
    have hrun : run id heap hor (op :: h) = (step id s op).1 := rfl
    rw [hrun]
    clear hrun
    cases op with
    | add p =>
      simp only [step, add, registered, horizonOf]
      by_cases he : exists_ s (id p) = true
      · obtain ⟨q, hq⟩ : ∃ q, s.dict.find (id p) = some q := by
          simpa [exists_, Option.isSome_iff_exists] using he
        simp only [he, Bool.not_true, Bool.false_eq_true, if_false]
        refine ⟨i1, by show s.hor = _; exact i2, fun k => ?_⟩
        by_cases hk : id p = k
        · subst hk
          have hr := (i3 (id p)).1
          rw [hq] at hr
          simp only [if_true, ← hr, Option.getD_some]
          exact ⟨hq, (i3 (id p)).2 |> fun f r hr' => f r (by rw [← hr]; exact hr')⟩
        · simp only [if_neg hk]; exact i3 k
      · have hn : s.dict.find (id p) = none := by
          simpa [exists_] using he
        have he' : exists_ s (id p) = false := by simpa using he
        simp only [he', Bool.not_false, if_true]
        refine ⟨?_, i2, fun k => ?_⟩
        · exact SMap.Sorted.emplace i1 _ _
        · show (s.dict.emplace (id p) p).find k = _ ∧ _
          rw [SMap.find_emplace]
          by_cases hk : id p = k
          · subst hk
            have hr := (i3 (id p)).1
            rw [hn] at hr
            simp [hn, ← hr]
          · simp only [if_neg hk]
            refine ⟨?_, (i3 k).2⟩
            rw [← (i3 k).1]
            simp [hk]
    | remove j =>
      simp only [step, remove, registered, horizonOf, get]
      cases hj : s.dict.find j with
      | none =>
        refine ⟨i1, i2, fun k => ?_⟩
        by_cases hk : j = k
        · subst hk; simp [hj]
        · simp only [if_neg hk]; exact i3 k
      | some p =>
        have hid : id p = j := (i3 j).2 p (by rw [← (i3 j).1, hj])
        refine ⟨SMap.Sorted.erase i1 _, i2, fun k => ?_⟩
        show (s.dict.erase (id p)).find k = _ ∧ _
        rw [SMap.find_erase, hid]
        by_cases hk : j = k
        · subst hk; simp
        · simp only [if_neg hk]; exact i3 k
    | setHorizon x =>
      obtain ⟨h1, h2, -⟩ := setHorizon_spec s x
      simp only [step, registered, horizonOf]
      rw [h1, h2]
      exact ⟨i1, rfl, i3⟩
    | userDelayed p b => exact ⟨i1, i2, i3⟩
    | userHorizon p x => exact ⟨i1, i2, i3⟩

/-- C42. After every history of calls: `add` succeeds iff the ID is not registered, `remove` iff it is, and
`exists`, `get` and `get_instance_ids` report exactly the registered instances, each ID once. -/
theorem c42_finite_map (h : List Op) :
    let s := run id heap hor h
    (∀ p, (add id s p).2 = true ↔ registered id h (id p) = none) ∧
    (∀ k, (remove id s k).2 = true ↔ registered id h k ≠ none) ∧
    (∀ k, exists_ s k = true ↔ registered id h k ≠ none) ∧
    (∀ k, get s k = registered id h k) ∧
    (∀ k, k ∈ instanceIds s ↔ registered id h k ≠ none) ∧ (instanceIds s).Nodup := by
  obtain ⟨i1, i2, i3⟩ := run_inv id heap hor h
  intro s
  have hex : ∀ k, exists_ s k = true ↔ registered id h k ≠ none := by
    intro k
    rw [← (i3 k).1]
    exact Option.isSome_iff_ne_none
  refine ⟨?_, ?_, hex, fun k => (i3 k).1, ?_, ?_⟩
  · intro p
    have := hex (id p)
    unfold add
    by_cases he : exists_ s (id p) = true
    · simp only [he, Bool.not_true, Bool.false_eq_true, if_false, false_iff]
      exact this.mp he
    · have he' : exists_ s (id p) = false := by simpa using he
      simp only [he', Bool.not_false, if_true, true_iff]
      by_contra hc
      exact he (this.mpr hc)
  · intro k
    have hk := (i3 k).1
    change s.dict.find k = _ at hk
    rw [← hk]
    unfold remove get
    cases s.dict.find k <;> simp
  · intro k
    rw [← hex k]
    exact (SMap.find_isSome_iff s.dict k).symm
  · exact ((SMap.sorted_iff_keys s.dict).mp i1).imp (fun h => Nat.ne_of_lt h)

/-- C42. A failed call changes nothing; a call only touches its own ID. -/
theorem c42_frame (h : List Op) (p k : ℕ) :
    let s := run id heap hor h
    ((add id s p).2 = false → (add id s p).1 = s) ∧ ((remove id s k).2 = false → (remove id s k).1 = s) ∧
    (∀ j, j ≠ id p → get (add id s p).1 j = get s j) ∧ (∀ j, j ≠ k → get (remove id s k).1 j = get s j) := by
  intro s
  obtain ⟨i1, i2, i3⟩ := run_inv id heap hor h
  have a1 := (run_inv id heap hor (.add p :: h)).2.2
  have a2 := (run_inv id heap hor (.remove k :: h)).2.2
  refine ⟨?_, ?_, ?_, ?_⟩
  · unfold add; split <;> simp
  · unfold remove; split <;> simp
  · intro j hj
    exact ((a1 j).1.trans (by simp only [registered, if_neg (Ne.symm hj)])).trans (i3 j).1.symm
  · intro j hj
    exact ((a2 j).1.trans (by simp only [registered, if_neg (Ne.symm hj)])).trans (i3 j).1.symm

/-- C42. A newly added instance has delay handling off and the handler's horizon, and keeps its type. -/
theorem c42_added (h : List Op) (p : ℕ) (hadd : registered id h (id p) = none) :
    let s := (add id (run id heap hor h) p).1
    get s (id p) = some p ∧ (s.heap p).delayed = false ∧ (s.heap p).hor = horizonOf hor h ∧
      (s.heap p).type = ((run id heap hor h).heap p).type ∧ ∀ q, q ≠ p → s.heap q = (run id heap hor h).heap q := by
  obtain ⟨i1, i2, i3⟩ := run_inv id heap hor h
  have ha := (run_inv id heap hor (.add p :: h)).2.2 (id p)
  refine ⟨ha.1.trans (by simp [registered, hadd]), ?_⟩
  have hf : exists_ (run id heap hor h) (id p) = false := by
    unfold exists_; rw [(i3 (id p)).1, hadd]; rfl
  simp only [add, hf, Bool.not_false, if_true, St.upd]
  refine ⟨trivial, i2, trivial, ?_⟩
  intro q hq
  simp [hq]

/-- The user did not call an instance directly. -/
def HandlerOnly (h : List Op) : Prop := ∀ op ∈ h, (∀ p b, op ≠ .userDelayed p b) ∧ ∀ p x, op ≠ .userHorizon p x

/-- C42. If the user changes instances only through the handler, every registered instance has delay handling off
and the handler's current horizon, at every point of every history. -/
theorem c42_registered_configured (h : List Op) (hu : HandlerOnly h) (k p : ℕ) (hk : registered id h k = some p) :
    ((run id heap hor h).heap p).delayed = false ∧ ((run id heap hor h).heap p).hor = horizonOf hor h := by
  induction h generalizing k p with
  | nil => simp [registered] at hk
  | cons op h ih =>
    have hu' : HandlerOnly h := fun o ho => hu o (List.mem_cons_of_mem _ ho)
    obtain ⟨i1, i2, i3⟩ := run_inv id heap hor h
    set s := run id heap hor h with hs
    cases op with
    | add q =>
      show ((add id s q).1.heap p).delayed = false ∧ ((add id s q).1.heap p).hor = horizonOf hor h
      cases hr : registered id h (id q) with
      | none =>
        obtain ⟨-, c2, c3, -, c5⟩ := c42_added id heap hor h q hr
        by_cases hpq : p = q
        · subst hpq; exact ⟨c2, c3⟩
        · rw [show (add id s q).1.heap p = s.heap p from c5 p hpq]
          simp only [registered] at hk
          split at hk
          · rename_i hidq
            rw [← hidq, hr] at hk; simp at hk; exact absurd hk.symm hpq
          · exact ih hu' k p hk
      | some r =>
        have hf : exists_ s (id q) = true := by
          show (s.dict.find (id q)).isSome = true
          rw [(i3 (id q)).1, hr]; rfl
        have : (add id s q).1 = s := by unfold add; simp [hf]
        rw [this]
        simp only [registered] at hk
        split at hk
        · rename_i hidq
          rw [← hidq, hr] at hk
          exact ih hu' (id q) p (by rw [hr]; simpa using hk)
        · exact ih hu' k p hk
    | remove j =>
      have : ((remove id s j).1).heap = s.heap := by unfold remove; split <;> rfl
      show (((remove id s j).1).heap p).delayed = false ∧ (((remove id s j).1).heap p).hor = horizonOf hor h
      rw [this]
      simp only [registered] at hk
      split at hk
      · simp at hk
      · exact ih hu' k p hk
    | setHorizon x =>
      obtain ⟨-, -, h3⟩ := setHorizon_spec s x
      show ((setHorizon s x).heap p).delayed = false ∧ ((setHorizon s x).heap p).hor = x
      have hk' : registered id h k = some p := hk
      have hm : p ∈ s.dict.map (·.2) := by
        rw [← (i3 k).1] at hk'
        exact List.mem_map.mpr ⟨(k, p), SMap.mem_of_find hk', rfl⟩
      rw [h3 p, if_pos hm]
      exact ⟨(ih hu' k p hk').1, rfl⟩
    | userDelayed q b => exact absurd rfl ((hu _ (List.mem_cons_self ..)).1 q b)
    | userHorizon q x => exact absurd rfl ((hu _ (List.mem_cons_self ..)).2 q x)

/-- The instance types reported are those of the registered instances. -/
theorem c42_types (h : List Op) (k : ℕ) :
    let s := run id heap hor h
    (instanceTypes s).find k = (registered id h k).map (fun p => (s.heap p).type) ∧
    typeById s k = ((registered id h k).map (fun p => (s.heap p).type)).getD "" := by
  obtain ⟨i1, i2, i3⟩ := run_inv id heap hor h
  intro s
  have gen : ∀ (l : SMap ℕ) (m : SMap String), l.Sorted → (∀ e ∈ l, m.find e.1 = none) → ∀ k,
      (l.foldl (fun m e => m.set e.1 (s.heap e.2).type) m).find k =
        (match l.find k with | some p => some (s.heap p).type | none => m.find k) := by
    intro l
    induction l with
    | nil => intro m _ _ k; rfl
    | cons e l ih =>
      intro m hl hm k
      have hl' : SMap.Sorted l := (List.pairwise_cons.mp hl).2
      have hlt := (List.pairwise_cons.mp hl).1
      rw [List.foldl_cons, ih _ hl' ?_ k]
      · rw [SMap.find_cons]
        by_cases hk : e.1 = k
        · subst hk
          have : SMap.find l e.1 = none := (SMap.find_none_iff l e.1).mpr (fun x hx => by have := hlt x hx; omega)
          simp [this, SMap.find_set]
        · simp only [if_neg hk]
          rw [SMap.find_set_ne m hk]
      · intro x hx
        have := hlt x hx
        rw [SMap.find_set_ne m (by omega)]
        exact hm x (List.mem_cons_of_mem _ hx)
  constructor
  · unfold instanceTypes
    rw [gen s.dict [] i1 (fun _ _ => rfl) k]
    rw [show s.dict.find k = _ from (i3 k).1]
    cases registered id h k <;> rfl
  · unfold typeById get
    rw [show s.dict.find k = _ from (i3 k).1]
    cases registered id h k <;> rfl

/-- C42, the simple handler (filters without buffers). After every history of calls: `add` succeeds iff the ID is
not registered, `remove` iff it is, `exists` and `get` report exactly the registered instances; no instance is
modified. -/
theorem c42_std (h : List Op) :
    let s := runStd id heap hor h
    (∀ p, (addStd id s p).2 = true ↔ registered id h (id p) = none) ∧
    (∀ k, (remove id s k).2 = true ↔ registered id h k ≠ none) ∧
    (∀ k, exists_ s k = true ↔ registered id h k ≠ none) ∧
    (∀ k, get s k = registered id h k) ∧ s.heap = heap := by
  have inv : ∀ h : List Op, (runStd id heap hor h).dict.Sorted ∧ (runStd id heap hor h).heap = heap ∧
      ∀ k, (runStd id heap hor h).dict.find k = (run id heap hor h).dict.find k := by
    intro h
    induction h with
    | nil => exact ⟨List.Pairwise.nil, rfl, fun _ => rfl⟩
    | cons op h ih =>
      obtain ⟨i1, i2, i3⟩ := ih
      obtain ⟨r1, -, r3⟩ := run_inv id heap hor h
      cases op with
      | add p =>
        have he : exists_ (runStd id heap hor h) (id p) = exists_ (run id heap hor h) (id p) := by
          unfold exists_; rw [i3]
        show (addStd id _ p).1.dict.Sorted ∧ (addStd id _ p).1.heap = heap ∧ ∀ k, (addStd id _ p).1.dict.find k = (add id _ p).1.dict.find k
        unfold addStd add
        rw [he]
        split
        · refine ⟨i1.emplace _ _, i2, ?_⟩
          intro k
          show SMap.find (SMap.emplace _ _ _) k = SMap.find (SMap.emplace _ _ _) k
          rw [SMap.find_emplace, SMap.find_emplace, i3, i3]; rfl
        · exact ⟨i1, i2, i3⟩
      | remove k =>
        show (remove id _ k).1.dict.Sorted ∧ (remove id _ k).1.heap = heap ∧ ∀ j, (remove id _ k).1.dict.find j = (remove id _ k).1.dict.find j
        unfold remove get
        rw [i3 k]
        cases hk : (run id heap hor h).dict.find k with
        | none => exact ⟨i1, i2, i3⟩
        | some p =>
          refine ⟨i1.erase _, i2, ?_⟩
          intro j
          show SMap.find (SMap.erase _ _) j = SMap.find (SMap.erase _ _) j
          rw [SMap.find_erase, SMap.find_erase, i3]
      | setHorizon x =>
        refine ⟨i1, i2, fun k => ?_⟩
        rw [show (run id heap hor (.setHorizon x :: h)).dict = (run id heap hor h).dict from (setHorizon_spec _ x).1]
        exact i3 k
      | userDelayed p b => exact ⟨i1, i2, i3⟩
      | userHorizon p x => exact ⟨i1, i2, i3⟩
  obtain ⟨-, i2, i3⟩ := inv h
  obtain ⟨f1, f2, f3, f4, -⟩ := c42_finite_map id heap hor h
  intro s
  have he : ∀ k, exists_ s k = exists_ (run id heap hor h) k := fun k => by unfold exists_; rw [i3]
  have hg : ∀ k, get s k = get (run id heap hor h) k := i3
  refine ⟨?_, ?_, fun k => by rw [he]; exact f3 k, fun k => by rw [hg]; exact f4 k, i2⟩
  · intro p
    rw [← f1 p]
    unfold addStd add
    rw [he]
    split <;> exact Iff.rfl
  · intro k
    rw [← f2 k]
    unfold remove
    rw [hg]
    cases get (run id heap hor h) k <;> exact Iff.rfl

/-- Two instances with the same ID 7: the second is refused until the first is removed. -/
example : registered (fun _ => 7) [.add 2, .add 1] 7 = some 1 ∧
    registered (fun _ => 7) [.add 2, .remove 7, .add 1] 7 = some 2 ∧
    (run (fun _ => 7) (fun _ => ⟨"imu", true, 1⟩) 5 [.add 2, .remove 7, .add 1]).dict = [(7, 2)] ∧
    ((run (fun _ => 7) (fun _ => ⟨"imu", true, 1⟩) 5 [.add 2, .remove 7, .add 1]).heap 2).hor = 5 := by
  refine ⟨by decide, by decide, by decide, by rfl⟩

end Ikf.Registry
