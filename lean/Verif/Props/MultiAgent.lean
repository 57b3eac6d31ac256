import Verif.Model.MultiAgent
import Verif.Lemmas.SMap
import Verif.Lemmas.HandlerInv
import Mathlib.Tactic

/-!
# C46, C47, C48: collaboration between agents
-/

namespace Ikf.Agents

/-! ## C48 -/

/-- Agent `a` lists estimator `k` with type `ty`. -/
def Lists (T : Tables) (a k : ℕ) (ty : String) : Prop := ∃ l, (a, l) ∈ T.agents ∧ (k, ty) ∈ l

theorem mem_setInsert (k : ℕ) (l : List ℕ) (x : ℕ) : x ∈ setInsert k l ↔ x = k ∨ x ∈ l := by
  induction l with
  | nil => simp [setInsert]
  | cons a r ih =>
    simp only [setInsert]
    split_ifs with h1 h2
    · simp
    · subst h2; simp
    · simp only [List.mem_cons, ih]; tauto

theorem sorted_setInsert (k : ℕ) (l : List ℕ) (h : l.Pairwise (· < ·)) : (setInsert k l).Pairwise (· < ·) := by
  induction l with
  | nil => simp [setInsert]
  | cons a r ih =>
    obtain ⟨h1, h2⟩ := List.pairwise_cons.mp h
    simp only [setInsert]
    split_ifs with c1 c2
    · refine List.pairwise_cons.mpr ⟨?_, h⟩
      intro x hx
      rcases List.mem_cons.mp hx with rfl | hx
      · exact c1
      · exact c1.trans (h1 x hx)
    · exact h
    · refine List.pairwise_cons.mpr ⟨?_, ih h2⟩
      intro x hx
      rcases (mem_setInsert k r x).mp hx with rfl | hx
      · omega
      · exact h1 x hx

theorem inner_ids (l : List (ℕ × String)) (s : List ℕ) (hs : s.Pairwise (· < ·)) :
    (l.foldl (fun s i => setInsert i.1 s) s).Pairwise (· < ·) ∧
    ∀ x, x ∈ l.foldl (fun s i => setInsert i.1 s) s ↔ x ∈ s ∨ ∃ ty, (x, ty) ∈ l := by
  induction l generalizing s with
  | nil => exact ⟨hs, fun x => by simp⟩
  | cons i l ih =>
    obtain ⟨h1, h2⟩ := ih (setInsert i.1 s) (sorted_setInsert _ _ hs)
    refine ⟨h1, fun x => ?_⟩
    rw [List.foldl_cons, h2 x, mem_setInsert]
    constructor
    · rintro ((rfl | h) | ⟨ty, h⟩)
      · exact Or.inr ⟨i.2, List.mem_cons_self ..⟩
      · exact Or.inl h
      · exact Or.inr ⟨ty, List.mem_cons_of_mem _ h⟩
    · rintro (h | ⟨ty, h⟩)
      · exact Or.inl (Or.inr h)
      · rcases List.mem_cons.mp h with h | h
        · exact Or.inl (Or.inl (by rw [← h]))
        · exact Or.inr ⟨ty, h⟩

theorem outer_ids (L : SMap (List (ℕ × String))) (s : List ℕ) (hs : s.Pairwise (· < ·)) :
    (L.foldl (fun s e => e.2.foldl (fun s i => setInsert i.1 s) s) s).Pairwise (· < ·) ∧
    ∀ x, x ∈ L.foldl (fun s e => e.2.foldl (fun s i => setInsert i.1 s) s) s ↔ x ∈ s ∨ ∃ e ∈ L, ∃ ty, (x, ty) ∈ e.2 := by
  induction L generalizing s with
  | nil => exact ⟨hs, fun x => by simp⟩
  | cons e L ih =>
    obtain ⟨g1, g2⟩ := inner_ids e.2 s hs
    obtain ⟨h1, h2⟩ := ih _ g1
    refine ⟨h1, fun x => ?_⟩
    rw [List.foldl_cons, h2 x, g2 x]
    simp only [List.exists_mem_cons_iff]
    tauto

/-- C48. `get_estimator_IDs` lists exactly the estimators of all agents, once each and in order; `exists` and
`get_agent_IDs` describe the same table. -/
theorem c48_ids (T : Tables) :
    (∀ k, k ∈ estimatorIDs T ↔ ∃ a ty, Lists T a k ty) ∧ (estimatorIDs T).Pairwise (· < ·) ∧
    (∀ k, known T k = true ↔ ∃ a ty, Lists T a k ty) ∧
    (∀ a, a ∈ agentIDs T ↔ ∃ l, (a, l) ∈ T.agents) := by
  obtain ⟨h1, h2⟩ := outer_ids T.agents [] List.Pairwise.nil
  have hm : ∀ k, k ∈ estimatorIDs T ↔ ∃ a ty, Lists T a k ty := by
    intro k
    unfold estimatorIDs
    rw [h2 k]
    constructor
    · rintro (h | ⟨e, he, ty, h⟩)
      · simp at h
      · exact ⟨e.1, ty, e.2, he, h⟩
    · rintro ⟨a, ty, l, hl, h⟩
      exact Or.inr ⟨(a, l), hl, ty, h⟩
  refine ⟨hm, h1, ?_, ?_⟩
  · intro k
    rw [← hm k]
    unfold known
    simp
  · intro a
    unfold agentIDs
    rw [List.mem_map]
    constructor
    · rintro ⟨e, he, rfl⟩; exact ⟨e.2, he⟩
    · rintro ⟨l, h⟩; exact ⟨(a, l), h, rfl⟩

theorem inner_types (l : List (ℕ × String)) (m : SMap String) (k : ℕ) :
    ((l.foldl (fun m i => m.set i.1 i.2) m).find k = m.find k ∧ ∀ ty, (k, ty) ∉ l) ∨
    ∃ ty, (l.foldl (fun m i => m.set i.1 i.2) m).find k = some ty ∧ (k, ty) ∈ l := by
  induction l generalizing m with
  | nil => exact Or.inl ⟨rfl, by simp⟩
  | cons i l ih =>
    rw [List.foldl_cons]
    rcases ih (m.set i.1 i.2) with ⟨h1, h2⟩ | ⟨ty, h1, h2⟩
    · by_cases hk : i.1 = k
      · right
        refine ⟨i.2, ?_, ?_⟩
        · rw [h1, SMap.find_set, if_pos hk]
        · rw [← hk]; exact List.mem_cons_self ..
      · left
        refine ⟨by rw [h1, SMap.find_set_ne m hk], ?_⟩
        intro ty h
        rcases List.mem_cons.mp h with h | h
        · exact hk (by rw [← h])
        · exact h2 ty h
    · exact Or.inr ⟨ty, h1, List.mem_cons_of_mem _ h2⟩

theorem outer_types (L : SMap (List (ℕ × String))) (m : SMap String) (k : ℕ) :
    ((L.foldl (fun m e => e.2.foldl (fun m i => m.set i.1 i.2) m) m).find k = m.find k ∧ ∀ e ∈ L, ∀ ty, (k, ty) ∉ e.2) ∨
    ∃ ty, (L.foldl (fun m e => e.2.foldl (fun m i => m.set i.1 i.2) m) m).find k = some ty ∧ ∃ e ∈ L, (k, ty) ∈ e.2 := by
  induction L generalizing m with
  | nil => exact Or.inl ⟨rfl, by simp⟩
  | cons e L ih =>
    rw [List.foldl_cons]
    rcases ih (e.2.foldl (fun m i => m.set i.1 i.2) m) with ⟨h1, h2⟩ | ⟨ty, h1, e', he', h2⟩
    · rcases inner_types e.2 m k with ⟨g1, g2⟩ | ⟨ty, g1, g2⟩
      · left
        refine ⟨by rw [h1, g1], ?_⟩
        intro x hx ty
        rcases List.mem_cons.mp hx with rfl | hx
        · exact g2 ty
        · exact h2 x hx ty
      · exact Or.inr ⟨ty, by rw [h1, g1], e, List.mem_cons_self .., g2⟩
    · exact Or.inr ⟨ty, h1, e', List.mem_cons_of_mem _ he', h2⟩

/-- C48. `get_types` has an entry for exactly the listed estimators, and it is a type some agent lists;
`get_type_by_ID` agrees and answers "" for an unknown one. -/
theorem c48_types (T : Tables) (k : ℕ) :
    ((types T).find k ≠ none ↔ ∃ a ty, Lists T a k ty) ∧
    (∀ ty, (types T).find k = some ty → (∃ a, Lists T a k ty) ∧ typeById T k = ty) ∧
    ((¬ ∃ a ty, Lists T a k ty) → typeById T k = "") := by
  rcases outer_types T.agents [] k with ⟨h1, h2⟩ | ⟨ty, h1, e, he, h2⟩
  · have hf : (types T).find k = none := h1
    have hn : ¬ ∃ a ty, Lists T a k ty := by
      rintro ⟨a, ty, l, hl, h⟩
      exact h2 (a, l) hl ty h
    refine ⟨by rw [hf]; simp [hn], by rw [hf]; simp, fun _ => ?_⟩
    unfold typeById; rw [hf]
  · have hf : (types T).find k = some ty := h1
    have hl : ∃ a ty, Lists T a k ty := ⟨e.1, ty, e.2, he, h2⟩
    refine ⟨by rw [hf]; simp [hl], ?_, fun h => absurd hl h⟩
    intro ty' hty
    rw [hf] at hty
    have hty := Option.some.inj hty
    subst hty
    refine ⟨⟨e.1, e.2, he, h2⟩, ?_⟩
    unfold typeById; rw [hf]

/-- What the derived class has to establish: the second table is the inverse of the first. -/
def Consistent (T : Tables) : Prop :=
  ∀ k a, T.id2agent.find k = some a ↔ ∃ ty, Lists T a k ty

/-- C48, lookup. With a second table that matches the first, `estimatorID2agentID` answers the owning agent of
every listed estimator and 0 for an unknown one. Missing (`_partial`): nothing in the library establishes or
checks the assumption; the tables are filled by derived classes. -/
theorem c48_lookup_partial (T : Tables) (hc : Consistent T) (k : ℕ) :
    (∀ a ty, Lists T a k ty → agentOf T k = a) ∧ ((¬ ∃ a ty, Lists T a k ty) → agentOf T k = 0) := by
  constructor
  · intro a ty h
    unfold agentOf
    rw [(hc k a).mpr ⟨ty, h⟩]
  · intro h
    unfold agentOf
    cases hf : T.id2agent.find k with
    | none => rfl
    | some a => exact absurd ⟨a, (hc k a).mp hf⟩ h

/-- C48 is false without that assumption: there are tables in which a listed estimator has no agent, and the
answer 0 is also a possible agent ID. -/
theorem c48_lookup_fails : ∃ T : Tables, (∃ ty, Lists T 3 7 ty) ∧ known T 7 = true ∧ agentOf T 7 = 0 :=
  ⟨⟨[(3, [(7, "imu")])], []⟩, ⟨"imu", [(7, "imu")], by simp, by simp⟩, by decide, by decide⟩

/-- Two agents. -/
def exT : Tables := ⟨[(1, [(10, "imu"), (11, "gps")]), (2, [(20, "imu")])], [(10, 1), (11, 1), (20, 2)]⟩

example : estimatorIDs exT = [10, 11, 20] ∧ agentOf exT 20 = 2 ∧ agentOf exT 5 = 0 ∧ typeById exT 11 = "gps" := by decide

example : Consistent exT := by
  intro k a
  constructor
  · intro h
    have := SMap.mem_of_find h
    simp [exT] at this
    rcases this with ⟨rfl, rfl⟩ | ⟨rfl, rfl⟩ | ⟨rfl, rfl⟩
    · exact ⟨"imu", [(10, "imu"), (11, "gps")], by simp [exT], by simp⟩
    · exact ⟨"gps", [(10, "imu"), (11, "gps")], by simp [exT], by simp⟩
    · exact ⟨"imu", [(20, "imu")], by simp [exT], by simp⟩
  · rintro ⟨ty, l, hl, h⟩
    simp [exT] at hl
    rcases hl with ⟨rfl, rfl⟩ | ⟨rfl, rfl⟩ <;> simp at h
    · rcases h with ⟨rfl, -⟩ | ⟨rfl, -⟩ <;> rfl
    · rcases h with ⟨rfl, -⟩; rfl

/-! ## C47 -/

variable {P : Type _}

theorem mem_allAt (b : Buf (Meas P)) (hk : ∀ e ∈ b, e.1 = e.2.t) (t : Int) (x : Meas P) :
    x ∈ Buf.getAllAt b t ↔ ∃ e ∈ b, e.2 = x ∧ e.2.t = t := by
  unfold Buf.getAllAt
  split
  · unfold Buf.equalRange
    rw [List.mem_map]
    constructor
    · rintro ⟨e, he, rfl⟩
      rw [List.mem_filter] at he
      refine ⟨e, he.1, rfl, ?_⟩
      rw [← hk e he.1]; simpa using he.2
    · rintro ⟨e, he, rfl, ht⟩
      refine ⟨e, List.mem_filter.mpr ⟨he, ?_⟩, rfl⟩
      rw [hk e he, ht]; simp
  · rename_i hne
    constructor
    · intro h; simp at h
    · rintro ⟨e, he, _, ht⟩
      exact absurd ((Buf.existAt_iff b t).mpr ⟨e, he, by rw [hk e he, ht]⟩) hne

/-- C47. STRICT is the rule of the base class. -/
theorem c47_strict (b : Buf (Meas P)) (m : Meas P) : orderViolated .strict b m = Handler.isOrderViolated b m := rfl

/-- C47. RELAXED is violated exactly if a later measurement is stored, or if a propagation arrives and a private or
joint observation of the same time is stored. -/
theorem c47_relaxed_iff (b : Buf (Meas P)) (hs : b.SortedKeys) (hk : ∀ e ∈ b, e.1 = e.2.t) (m : Meas P) :
    orderViolated .relaxed b m = true ↔
      (∃ e ∈ b, m.t < e.2.t) ∨
      (m.kind = .propagation ∧ ∃ e ∈ b, e.2.t = m.t ∧ (e.2.kind = .priv ∨ e.2.kind = .joint)) := by
  have hafter : b.existAfter m.t = true ↔ ∃ e ∈ b, m.t < e.2.t := by
    rw [Buf.existAfter_iff b hs]
    constructor
    · rintro ⟨e, he, h⟩; exact ⟨e, he, by rw [← hk e he]; exact h⟩
    · rintro ⟨e, he, h⟩; exact ⟨e, he, by rw [hk e he]; exact h⟩
  simp only [orderViolated]
  split
  · rename_i h; exact ⟨fun _ => Or.inl (hafter.mp h), fun _ => rfl⟩
  · rename_i h
    have hn : ¬ ∃ e ∈ b, m.t < e.2.t := fun hc => h (hafter.mpr hc)
    split
    · rename_i hp
      rw [List.any_eq_true]
      constructor
      · rintro ⟨x, hx, hxk⟩
        obtain ⟨e, he, rfl, ht⟩ := (mem_allAt b hk m.t x).mp hx
        exact Or.inr ⟨hp, e, he, ht, by simpa using hxk⟩
      · rintro (hc | ⟨-, e, he, ht, hkd⟩)
        · exact absurd hc hn
        · exact ⟨e.2, (mem_allAt b hk m.t e.2).mpr ⟨e, he, rfl, ht⟩, by simpa using hkd⟩
    · rename_i hp
      simp only [Bool.false_eq_true, false_iff]
      rintro (hc | ⟨hc, -⟩)
      · exact hn hc
      · exact hp hc

/-- C47. RELAXED-violated implies STRICT-violated, and they differ exactly for a private observation that arrives
after a joint one of the same time. No assumption on the history. -/
theorem c47_relaxed_strict (b : Buf (Meas P)) (m : Meas P) :
    (orderViolated .relaxed b m = true → orderViolated .strict b m = true) ∧
    (orderViolated .strict b m = true → orderViolated .relaxed b m = false →
      m.kind = .priv ∧ ∃ x ∈ b.getAllAt m.t, x.kind = .joint) := by
  simp only [orderViolated, Handler.isOrderViolated]
  cases hk : m.kind <;> by_cases ha : b.existAfter m.t = true <;> simp [ha]
  all_goals exact fun x hx h => ⟨x, hx, by tauto⟩

/-- The strategies differ. -/
example : orderViolated .strict [(5, (⟨1, 5, .joint, ()⟩ : Meas Unit))] ⟨1, 5, .priv, ()⟩ = true ∧
    orderViolated .relaxed [(5, (⟨1, 5, .joint, ()⟩ : Meas Unit))] ⟨1, 5, .priv, ()⟩ = false ∧
    orderViolated .relaxed [(5, (⟨1, 5, .joint, ()⟩ : Meas Unit))] ⟨1, 5, .propagation, ()⟩ = true := by decide

/-! ## C46 -/

/-- The loop over the participants. -/
theorem split_spec (loc : ℕ → Bool) (T : Tables) (IDs : List ℕ) (a : List ℕ × List ℕ × List ℕ) (ha : a.1.Pairwise (· < ·)) :
    (split loc T IDs a).2.1 = a.2.1 ++ IDs.filter (fun x => !loc x) ∧ (split loc T IDs a).2.2 = a.2.2 ++ IDs.filter loc ∧
    (split loc T IDs a).1.Pairwise (· < ·) ∧
    ∀ x, x ∈ (split loc T IDs a).1 ↔ x ∈ a.1 ∨ ∃ k ∈ IDs, loc k = false ∧ agentOf T k = x := by
  induction IDs generalizing a with
  | nil => simp [split, ha]
  | cons e r ih =>
    rw [split]
    by_cases he : loc e = true
    · simp only [he, Bool.not_true, Bool.false_eq_true, if_false]
      obtain ⟨h1, h2, h3, h4⟩ := ih (a.1, a.2.1, a.2.2 ++ [e]) ha
      refine ⟨by rw [h1]; simp [he], by rw [h2]; simp [he], h3, fun x => ?_⟩
      rw [h4 x]
      simp [he]
    · have he' : loc e = false := by simpa using he
      simp only [he', Bool.not_false, if_true]
      obtain ⟨h1, h2, h3, h4⟩ := ih (setInsert (agentOf T e) a.1, a.2.1 ++ [e], a.2.2) (sorted_setInsert _ _ ha)
      refine ⟨by rw [h1]; simp [he'], by rw [h2]; simp [he'], h3, fun x => ?_⟩
      rw [h4 x, mem_setInsert]
      simp [he']
      constructor
      · rintro ((h | h) | h)
        · exact Or.inr (Or.inl h.symm)
        · exact Or.inl h
        · exact Or.inr (Or.inr h)
      · rintro (h | h | h)
        · exact Or.inl (Or.inr h)
        · exact Or.inl (Or.inl h.symm)
        · exact Or.inr h

/-- A list without duplicates has length 1 iff it is not empty and all its members are equal. -/
theorem length_one_iff (l : List ℕ) (h : l.Pairwise (· < ·)) : l.length = 1 ↔ (∃ a, a ∈ l) ∧ ∀ a ∈ l, ∀ b ∈ l, a = b := by
  match l, h with
  | [], _ => simp
  | [a], _ => simp
  | a :: b :: r, h =>
    simp only [List.length_cons, List.mem_cons]
    constructor
    · intro hc; omega
    · rintro ⟨-, hc⟩
      have := hc a (Or.inl rfl) b (Or.inr (Or.inl rfl))
      have hab := (List.pairwise_cons.mp h).1 b (List.mem_cons_self ..)
      omega

variable {W : Type _}

/-- The other agents an observation involves. -/
def OtherAgent (loc : ℕ → Bool) (T : Tables) (IDs : List ℕ) (x : ℕ) : Prop := ∃ k ∈ IDs, loc k = false ∧ agentOf T k = x

/-- C46, `apply_observation(R, z, t, h, IDs, cfg)` of the collaborative handlers: local participants only: the
local update; instances of one other agent: exactly one inter-agent update with the participants split into
remote and local ones; two or more other agents: DISCARED, and nothing changes. -/
theorem c46_dispatch (loc : ℕ → Bool) (T : Tables) (localObs : W → List ℕ → Res (W × Status))
    (inter : W → List ℕ → List ℕ → Res (W × Status)) (w : W) (IDs : List ℕ) :
    ((∀ k ∈ IDs, loc k = true) → applyObsH loc T localObs inter w IDs = localObs w IDs) ∧
    (∀ x, OtherAgent loc T IDs x → (∀ y, OtherAgent loc T IDs y → y = x) →
      applyObsH loc T localObs inter w IDs = inter w (IDs.filter (fun k => !loc k)) (IDs.filter loc)) ∧
    (∀ x y, OtherAgent loc T IDs x → OtherAgent loc T IDs y → x ≠ y →
      applyObsH loc T localObs inter w IDs = .ok (w, .discarded)) := by
  obtain ⟨h1, h2, h3, h4⟩ := split_spec loc T IDs ([], [], []) List.Pairwise.nil
  simp only [List.nil_append, List.not_mem_nil, false_or] at h1 h2 h4
  have hne : ∀ x, OtherAgent loc T IDs x → (split loc T IDs ([], [], [])).2.1.length ≠ 0 := by
    rintro x ⟨k, hk, hl, -⟩
    rw [h1]
    have : k ∈ IDs.filter (fun x => !loc x) := List.mem_filter.mpr ⟨hk, by simp [hl]⟩
    intro hc
    rw [List.length_eq_zero_iff.mp hc] at this
    simp at this
  refine ⟨?_, ?_, ?_⟩
  · intro hall
    have : (split loc T IDs ([], [], [])).2.1.length = 0 := by
      rw [h1, List.length_eq_zero_iff, List.filter_eq_nil_iff]
      intro k hk; simp [hall k hk]
    simp only [applyObsH]
    rw [if_pos this]
  · intro x hx hall
    have h5 : (split loc T IDs ([], [], [])).1.length = 1 := by
      rw [length_one_iff _ h3]
      refine ⟨⟨x, (h4 x).mpr hx⟩, ?_⟩
      intro a ha b hb
      rw [hall a ((h4 a).mp ha), hall b ((h4 b).mp hb)]
    simp only [applyObsH]
    rw [if_neg (hne x hx), if_pos h5, h1, h2]
  · intro x y hx hy hxy
    have h5 : (split loc T IDs ([], [], [])).1.length ≠ 1 := by
      rw [Ne, length_one_iff _ h3]
      rintro ⟨-, hc⟩
      exact hxy (hc x ((h4 x).mpr hx) y ((h4 y).mpr hy))
    simp only [applyObsH]
    rw [if_neg (hne x hx), if_neg h5]

/-- C46. An observation with estimators unknown to the lookup table counts as involving an agent 0: with no other
remote estimator the inter-agent update is attempted, together with a known one it is discarded. -/
theorem c46_unknown (loc : ℕ → Bool) (T : Tables) (localObs : W → List ℕ → Res (W × Status))
    (inter : W → List ℕ → List ℕ → Res (W × Status)) (w : W) (IDs : List ℕ) (u : ℕ) (hu : u ∈ IDs) (hl : loc u = false)
    (hf : T.id2agent.find u = none) :
    ((∀ k ∈ IDs, loc k = false → T.id2agent.find k = none) →
      applyObsH loc T localObs inter w IDs = inter w (IDs.filter (fun k => !loc k)) (IDs.filter loc)) ∧
    (∀ k ∈ IDs, loc k = false → agentOf T k ≠ 0 → applyObsH loc T localObs inter w IDs = .ok (w, .discarded)) := by
  have h0 : ∀ k, T.id2agent.find k = none → agentOf T k = 0 := fun k hk => by unfold agentOf; rw [hk]
  obtain ⟨-, c2, c3⟩ := c46_dispatch loc T localObs inter w IDs
  constructor
  · intro hall
    refine c2 0 ⟨u, hu, hl, h0 u hf⟩ ?_
    rintro y ⟨k, hk, hkl, rfl⟩
    exact h0 k (hall k hk hkl)
  · intro k hk hkl hne
    exact c3 0 (agentOf T k) ⟨u, hu, hl, h0 u hf⟩ ⟨k, hk, hkl, rfl⟩ (Ne.symm hne)

/-- C46 is false of the overload of the C_IKF handler that is given the Jacobians: with instances of two other
agents the observation is not discarded but processed participant by participant. -/
theorem c46_jacobians_fails (loc : ℕ → Bool) (T : Tables) (localObs : W → List ℕ → Res (W × Bool))
    (inter : W → List ℕ → List ℕ → Res (W × Bool)) (general : W → List ℕ → Res (W × Bool)) (w : W) (IDs : List ℕ) (x y : ℕ)
    (hx : OtherAgent loc T IDs x) (hy : OtherAgent loc T IDs y) (hxy : x ≠ y) :
    applyObsDict loc T localObs inter general w IDs = general w IDs := by
  obtain ⟨h1, h2, h3, h4⟩ := split_spec loc T IDs ([], [], []) List.Pairwise.nil
  simp only [List.nil_append, List.not_mem_nil, false_or] at h1 h2 h4
  have hne : (split loc T IDs ([], [], [])).2.1.length ≠ 0 := by
    obtain ⟨k, hk, hl, -⟩ := hx
    rw [h1]
    have : k ∈ IDs.filter (fun x => !loc x) := List.mem_filter.mpr ⟨hk, by simp [hl]⟩
    intro hc
    rw [List.length_eq_zero_iff.mp hc] at this
    simp at this
  have h5 : (split loc T IDs ([], [], [])).1.length ≠ 1 := by
    rw [Ne, length_one_iff _ h3]
    rintro ⟨-, hc⟩
    exact hxy (hc x ((h4 x).mpr hx) y ((h4 y).mpr hy))
  simp only [applyObsDict]
  rw [if_neg hne, if_neg h5]

/-- One local estimator 5, estimators 10, 11 of agent 1 and 20 of agent 2. -/
example : OtherAgent (fun k => k == 5) exT [5, 10, 11] 1 ∧ (∀ y, OtherAgent (fun k => k == 5) exT [5, 10, 11] y → y = 1) ∧
    OtherAgent (fun k => k == 5) exT [5, 10, 20] 2 := by
  refine ⟨⟨10, by simp, by decide, by decide⟩, ?_, ⟨20, by simp, by decide, by decide⟩⟩
  rintro y ⟨k, hk, hl, rfl⟩
  simp at hk
  rcases hk with rfl | rfl | rfl
  · simp at hl
  · decide
  · decide

end Ikf.Agents
