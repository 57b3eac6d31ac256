import Verif.Lemmas.DelayDemo
import Verif.Props.History
import Verif.Props.Linear1D
import Verif.Props.Answers

/-! # Property C89: the example program computes the centralised filter's trajectory -/

namespace Ikf
open Mat

namespace DelayDemo
variable (fp : FP) (a : Args) (d : Draws)

/-! ## Specification -/

/-- The measurements the program hands to the handler, in this order. -/
def calls : List (Meas Linear1D.Data) :=
  (List.range' 1 (size fp a - 1)).flatMap fun idx =>
    (List.range (num a)).map (propagateIdx fp a d idx) ++ (List.range (num a)).flatMap (updateIdx fp a d idx)

/-- Of those of the first time step only the very first (the propagation of instance 0) counts, and all later ones. -/
def accepted : List (Meas Linear1D.Data) :=
  (calls fp a d).take 1 ++ (calls fp a d).filter fun m => decide (time fp a 1 < m.t)

/-- The centralised filter before the first measurement. -/
noncomputable def start : Central where
  tm _ := 0
  mu := d.mean0
  cov p q := if p = q then Mat.smul (1 / 2) (one 2) else Mat.zero 2 2
  fix _ := false

/-! ## The instances -/

variable {fp a d}

theorem team_spec (k : ℕ) : SMap.Sorted (team a d k) ∧
    ∀ p, (team a d k).find p = if p < k then some (Inst.doInit ⟨[], [], |dur a|⟩ (bel0 d p) 0) else none := by
  induction k with
  | zero => exact ⟨by simp [team, SMap.Sorted], fun p => rfl⟩
  | succ k ih =>
    have e : team a d (k + 1) = Hdl.addTo (dur a) (team a d k) k (Inst.doInit ⟨[], [], |dur a|⟩ (bel0 d k) 0) := by
      unfold team
      rw [List.range_succ, List.foldl_append]
      rfl
    have hk : (team a d k).find k = none := by rw [ih.2]; simp
    have e2 : team a d (k + 1) = (team a d k).emplace k (Inst.doInit ⟨[], [], |dur a|⟩ (bel0 d k) 0) := by
      rw [e]
      unfold Hdl.addTo
      rw [hk]
      rfl
    rw [e2]
    refine ⟨ih.1.emplace _ _, ?_⟩
    intro p
    rw [SMap.find_emplace, ih.2 p]
    by_cases hp : k = p
    · subst hp; rw [if_pos ⟨rfl, hk⟩, if_pos (by omega)]
    · rw [if_neg (fun h => hp h.1)]
      by_cases h : p < k
      · rw [if_pos h, if_pos (by omega)]
      · rw [if_neg h, if_neg (by omega)]

theorem team_known (p : ℕ) : ((team a d (num a)).find p).isSome = decide (p < num a) := by
  rw [(team_spec _).2]
  split <;> simp_all

theorem team_init (hm : ∀ i, (d.mean0 i).Shape 2 1) : Hdl.Init (fun _ => 2) (team a d (num a)) (start d) where
  sorted := (team_spec _).1
  inst := by
    intro p i hi
    rw [(team_spec _).2] at hi
    split at hi
    · obtain rfl := Option.some.inj hi
      refine ⟨|dur a|, bel0 d p, rfl, rfl, Nat.two_pos, (hm p).1, (hm p).2, rfl, ?_, rfl, by simp [start, bel0], rfl⟩
      refine Mat.ext' rfl rfl ?_
      intro i j _ _
      show (Mat.smul (1/2) (one 2)).tr.e i j = (Mat.smul (1/2) (one 2)).e i j
      rw [tr_e, smul_e, smul_e, one_e, one_e]
      by_cases h : i = j
      · rw [h]
      · rw [if_neg (fun x => h x.1.symm), if_neg (fun x => h x.1)]
    · simp at hi
  uncorrelated := by intro p q hpq; simp [start, hpq]

theorem num_pos : 0 < num a := by unfold num; omega

/-! ## The measurements -/

/-- What is known of one measurement of step `idx`. -/
structure OfStep (fp : FP) (a : Args) (idx : ℕ) (m : Meas Linear1D.Data) : Prop where
  id : m.id < num a
  kind : m.kind ≠ .unknown
  ok : Linear1D.Ok m
  time : ∃ k, 1 ≤ k ∧ k ≤ idx ∧ m.t = time fp a k
  joint : m.kind = .joint → m.data.J < num a

theorem scalar_ok (id : ℕ) (t : Int) (kind : ObsType) (z R : ℝ) (J : ℕ) (h : kind = .joint → J ≠ id) :
    Linear1D.Ok ⟨id, t, kind, ⟨scalar z, scalar R, J⟩⟩ := by
  refine ⟨⟨rfl, rfl⟩, ⟨rfl, rfl⟩, ?_, h⟩
  exact Mat.ext' rfl rfl (fun i j _ _ => by rw [tr_e]; simp only [scalar, of]; simp [and_comm])

theorem propagate_spec {idx i : ℕ} (h1 : 1 ≤ idx) (hi : i < num a) : OfStep fp a idx (propagateIdx fp a d idx i) :=
  ⟨hi, by simp [propagateIdx], scalar_ok _ _ _ _ _ _ (by simp), ⟨idx, h1, le_refl _, rfl⟩, by simp [propagateIdx]⟩

theorem next_ne {i n : ℕ} (hi : i < n) (hn : 1 < n) : (i + 1) % n ≠ i := by
  rcases Nat.lt_or_ge (i + 1) n with h | h
  · rw [Nat.mod_eq_of_lt h]; omega
  · rw [(by omega : i + 1 = n), Nat.mod_self]; omega

theorem update_spec {idx i : ℕ} (hi : i < num a) {m : Meas Linear1D.Data} (hm : m ∈ updateIdx fp a d idx i) :
    OfStep fp a idx m ∧ m.kind ≠ .propagation := by
  unfold updateIdx at hm
  rcases List.mem_append.mp hm with hm | hm
  · unfold privateIdx at hm
    split at hm
    · rename_i hc
      obtain rfl := List.mem_singleton.mp hm
      exact ⟨⟨hi, by simp, scalar_ok _ _ _ _ _ _ (by simp), ⟨idx - a.delayPrivate, by omega, by omega, rfl⟩, by simp⟩, by simp⟩
    · simp at hm
  · unfold jointIdx at hm
    split at hm
    · rename_i hc
      obtain rfl := List.mem_singleton.mp hm
      exact ⟨⟨hi, by simp, scalar_ok _ _ _ _ _ _ (fun _ => next_ne hi hc.1.2), ⟨idx - a.delayJoint, by omega, by omega, rfl⟩,
        fun _ => Nat.mod_lt _ num_pos⟩, by simp⟩
    · simp at hm

theorem calls_spec {m : Meas Linear1D.Data} (hm : m ∈ calls fp a d) : OfStep fp a (size fp a - 1) m := by
  unfold calls at hm
  obtain ⟨idx, hidx, hm⟩ := List.mem_flatMap.mp hm
  have hi := List.mem_range'_1.mp hidx
  have : OfStep fp a idx m := by
    rcases List.mem_append.mp hm with hm | hm
    · obtain ⟨i, hi', rfl⟩ := List.mem_map.mp hm
      exact propagate_spec hi.1 (List.mem_range.mp hi')
    · obtain ⟨i, hi', hm⟩ := List.mem_flatMap.mp hm
      exact (update_spec (List.mem_range.mp hi') hm).1
  obtain ⟨h1, h2, h3, ⟨k, k1, k2, k3⟩, h5⟩ := this
  exact ⟨h1, h2, h3, ⟨k, k1, by omega, k3⟩, h5⟩

theorem once (hr : Range a) : (calls fp a d).Pairwise fun x y => x.kind = .propagation → y.kind = .propagation → x.id = y.id → x.t ≠ y.t := by
  unfold calls
  rw [List.pairwise_flatMap]
  constructor
  · intro idx hidx
    rw [List.pairwise_append]
    refine ⟨?_, ?_, ?_⟩
    · rw [List.pairwise_map]
      refine List.Pairwise.imp ?_ List.nodup_range
      intro i j hij _ _ h
      exact absurd h hij
    · rw [List.pairwise_iff_forall_sublist]
      intro x y hxy hx
      have hmem := hxy.subset (List.mem_cons_self)
      obtain ⟨i, hi, hm⟩ := List.mem_flatMap.mp hmem
      exact absurd hx (update_spec (List.mem_range.mp hi) hm).2
    · intro x _ y hy _ hyk
      obtain ⟨i, hi, hm⟩ := List.mem_flatMap.mp hy
      exact absurd hyk (update_spec (List.mem_range.mp hi) hm).2
  · refine List.Pairwise.imp_of_mem ?_ (List.pairwise_lt_range' (s := 1) (n := size fp a - 1) (step := 1))
    intro i j hi hj hij x hx y hy hxk hyk _
    have hi := List.mem_range'_1.mp hi
    have hj := List.mem_range'_1.mp hj
    have ht : ∀ k x, x ∈ (List.range (num a)).map (propagateIdx fp a d k) ++ (List.range (num a)).flatMap (updateIdx fp a d k) →
        x.kind = .propagation → x.t = time fp a k := by
      intro k x hx hxk
      rcases List.mem_append.mp hx with hx | hx
      · obtain ⟨i, -, rfl⟩ := List.mem_map.mp hx
        rfl
      · obtain ⟨i, hi, hm⟩ := List.mem_flatMap.mp hx
        exact absurd hxk (update_spec (List.mem_range.mp hi) hm).2
    rw [ht i x hx hxk, ht j y hy hyk]
    have := time_lt (fp := fp) hr hij (by omega)
    omega

/-- Each joint observation comes after the propagations of its participants to its time; `A` has come before. -/
def Ready (A : List (Meas Linear1D.Data)) : List (Meas Linear1D.Data) → Prop
  | [] => True
  | m :: C => (m.kind = .joint → ∀ p ∈ [m.id, m.data.J], ∃ x ∈ A, x.kind = .propagation ∧ x.id = p ∧ x.t = m.t) ∧ Ready (A ++ [m]) C

theorem Ready.append {C1 C2 : List (Meas Linear1D.Data)} : ∀ {A}, Ready A C1 → Ready (A ++ C1) C2 → Ready A (C1 ++ C2) := by
  induction C1 with
  | nil => intro A _ h; simpa using h
  | cons m C ih =>
    intro A h1 h2
    refine ⟨h1.1, ih h1.2 ?_⟩
    simpa using h2

theorem Ready.of_all {C : List (Meas Linear1D.Data)} : ∀ {A},
    (∀ m ∈ C, m.kind = .joint → ∀ p ∈ [m.id, m.data.J], ∃ x ∈ A, x.kind = .propagation ∧ x.id = p ∧ x.t = m.t) → Ready A C := by
  induction C with
  | nil => intro A _; trivial
  | cons m C ih =>
    intro A h
    refine ⟨h m (by simp), ih ?_⟩
    intro y hy hk p hp
    obtain ⟨x, hx, h1⟩ := h y (by simp [hy]) hk p hp
    exact ⟨x, by simp [hx], h1⟩

/-- Dropping measurements by their time keeps it. -/
theorem Ready.filter {q : Int → Bool} {C : List (Meas Linear1D.Data)} : ∀ {A B}, Ready A C → (∀ x ∈ A, q x.t = true → x ∈ B) →
    Ready B (C.filter fun m => q m.t) := by
  induction C with
  | nil => intro A B _ _; trivial
  | cons m C ih =>
    intro A B h hB
    by_cases hq : q m.t = true
    · rw [List.filter_cons_of_pos (p := fun m : Meas Linear1D.Data => q m.t) hq]
      refine ⟨?_, ih h.2 ?_⟩
      · intro hk p hp
        obtain ⟨x, hx, h1, h2, h3⟩ := h.1 hk p hp
        exact ⟨x, hB x hx (by rw [h3]; exact hq), h1, h2, h3⟩
      · intro x hx hxq
        rcases List.mem_append.mp hx with hx | hx
        · exact List.mem_append_left _ (hB x hx hxq)
        · exact List.mem_append_right _ hx
    · rw [List.filter_cons_of_neg (p := fun m : Meas Linear1D.Data => q m.t) hq]
      refine ih h.2 ?_
      intro x hx hxq
      rcases List.mem_append.mp hx with hx | hx
      · exact hB x hx hxq
      · rw [List.mem_singleton.mp hx] at hxq
        exact absurd hxq hq

theorem Ready.take {C : List (Meas Linear1D.Data)} : ∀ {A}, Ready A C → ∀ n, ∀ m ∈ C.take n, m.kind = .joint → ∀ p ∈ [m.id, m.data.J],
    ∃ x ∈ A ++ C.take n, x.kind = .propagation ∧ x.id = p ∧ x.t = m.t := by
  induction C with
  | nil => intro A _ n m hm; simp at hm
  | cons y C ih =>
    intro A h n m hm hk p hp
    cases n with
    | zero => simp at hm
    | succ n =>
      rw [List.take_succ_cons] at hm ⊢
      rcases List.mem_cons.mp hm with rfl | hm
      · obtain ⟨x, hx, h1⟩ := h.1 hk p hp
        exact ⟨x, by simp [hx], h1⟩
      · obtain ⟨x, hx, h1⟩ := ih h.2 n m hm hk p hp
        exact ⟨x, by simpa using hx, h1⟩

/-- The first `k` steps. -/
def callsTo (fp : FP) (a : Args) (d : Draws) (k : ℕ) : List (Meas Linear1D.Data) :=
  (List.range' 1 k).flatMap fun idx =>
    (List.range (num a)).map (propagateIdx fp a d idx) ++ (List.range (num a)).flatMap (updateIdx fp a d idx)

theorem callsTo_succ (k : ℕ) : callsTo fp a d (k + 1) = callsTo fp a d k ++
    ((List.range (num a)).map (propagateIdx fp a d (k + 1)) ++ (List.range (num a)).flatMap (updateIdx fp a d (k + 1))) := by
  unfold callsTo
  rw [List.range'_concat, List.flatMap_append]
  simp [Nat.add_comm]

theorem prop_mem {k j i : ℕ} (h1 : 1 ≤ j) (h2 : j ≤ k) (hi : i < num a) : propagateIdx fp a d j i ∈ callsTo fp a d k := by
  unfold callsTo
  refine List.mem_flatMap.mpr ⟨j, List.mem_range'_1.mpr ⟨h1, by omega⟩, ?_⟩
  exact List.mem_append_left _ (List.mem_map.mpr ⟨i, List.mem_range.mpr hi, rfl⟩)

theorem ready (k : ℕ) : Ready [] (callsTo fp a d k) := by
  induction k with
  | zero => trivial
  | succ k ih =>
    rw [callsTo_succ]
    refine ih.append (Ready.append (Ready.of_all ?_) (Ready.of_all ?_))
    · intro m hm hk
      obtain ⟨i, -, rfl⟩ := List.mem_map.mp hm
      simp [propagateIdx] at hk
    · intro m hm hk p hp
      obtain ⟨i, hi, hm⟩ := List.mem_flatMap.mp hm
      have hs := (update_spec (List.mem_range.mp hi) hm).1
      obtain ⟨j, j1, j2, jt⟩ := hs.time
      have hp' : p < num a := by
        rcases List.mem_pair.mp hp with rfl | rfl
        · exact hs.id
        · exact hs.joint hk
      refine ⟨propagateIdx fp a d j p, ?_, rfl, rfl, jt.symm⟩
      rcases Nat.lt_or_ge k j with h | h
      · have : j = k + 1 := by omega
        rw [this]
        exact List.mem_append_right _ (List.mem_map.mpr ⟨p, List.mem_range.mpr hp', rfl⟩)
      · simp only [List.nil_append]
        exact List.mem_append_left _ (prop_mem j1 h hp')

/-! ## What the handler accepts -/

theorem calls_cons (hr : Range a) : ∃ rest, calls fp a d = propagateIdx fp a d 1 0 :: rest := by
  obtain ⟨h1, -⟩ := size_bounds (fp := fp) hr
  obtain ⟨n, hn⟩ : ∃ n, size fp a - 1 = n + 1 := ⟨size fp a - 2, by omega⟩
  obtain ⟨k, hk⟩ : ∃ k, num a = k + 1 := ⟨num a - 1, by have := num_pos (a := a); omega⟩
  unfold calls
  rw [hn, List.range'_succ, List.flatMap_cons]
  have hl : (List.range (num a)).map (propagateIdx fp a d 1) = propagateIdx fp a d 1 0 :: ((List.range k).map Nat.succ).map (propagateIdx fp a d 1) := by
    rw [hk, List.range_succ_eq_map, List.map_cons]
  rw [hl, List.cons_append, List.cons_append]
  exact ⟨_, rfl⟩

theorem accepts_rest {kn : ℕ → Bool} {hz : ℚ} {m0 : Meas Linear1D.Data} {hi : Int} (hz' : ((hi - m0.t : ℤ) : ℚ) / 1000000000 ≤ hz - 1 / 100000)
    {C : List (Meas Linear1D.Data)} : ∀ {A}, m0 ∈ A → (∀ x ∈ A, m0.t ≤ x.t ∧ x.t ≤ hi) →
    (∀ m ∈ C, kn m.id = true ∧ (m.t = m0.t ∨ m0.t + 13000 ≤ m.t) ∧ m.t ≤ hi) →
    Accepts kn hz A (C.map HOp.meas) (C.filter fun m => decide (m0.t < m.t)) := by
  induction C with
  | nil => intro A _ _ _; exact .nil A
  | cons m C ih =>
    intro A h0 hA hC
    obtain ⟨hk, ht, hh⟩ := hC m (by simp)
    by_cases hlt : m0.t < m.t
    · rw [List.filter_cons_of_pos (by simpa using hlt), List.map_cons]
      refine .take hk (Or.inr ⟨m0, h0, by omega, ?_⟩) (ih (by simp [h0]) ?_ (fun x hx => hC x (by simp [hx])))
      · intro y hy
        refine le_trans ?_ hz'
        have := (hA y hy).2
        have : ((y.t - m0.t : ℤ) : ℚ) ≤ ((hi - m0.t : ℤ) : ℚ) := by exact_mod_cast (by omega : y.t - m0.t ≤ hi - m0.t)
        exact div_le_div_of_nonneg_right this (by norm_num)
      · intro x hx
        rcases List.mem_append.mp hx with hx | hx
        · exact hA x hx
        · rw [List.mem_singleton.mp hx]; omega
    · rw [List.filter_cons_of_neg (by simpa using hlt), List.map_cons]
      refine .drop (Or.inr ⟨List.ne_nil_of_mem h0, ?_⟩) (ih h0 hA (fun x hx => hC x (by simp [hx])))
      intro x hx
      have := (hA x hx).1
      omega

theorem accepted_cons {rest : List (Meas Linear1D.Data)} (h : calls fp a d = propagateIdx fp a d 1 0 :: rest) :
    accepted fp a d = propagateIdx fp a d 1 0 :: rest.filter fun m => decide (time fp a 1 < m.t) := by
  unfold accepted
  rw [h, List.filter_cons_of_neg (by simp [propagateIdx])]
  rfl

theorem accepted_sub (hr : Range a) : (accepted fp a d).Sublist (calls fp a d) := by
  obtain ⟨rest, h⟩ := calls_cons (fp := fp) (d := d) hr
  rw [accepted_cons h, h]
  exact List.filter_sublist.cons_cons _

theorem accepted_ready (hr : Range a) : Ready [] (accepted fp a d) := by
  obtain ⟨rest, h⟩ := calls_cons (fp := fp) (d := d) hr
  have h1 := ready (fp := fp) (a := a) (d := d) (size fp a - 1)
  change Ready [] (calls fp a d) at h1
  rw [h] at h1
  rw [accepted_cons h]
  refine ⟨by simp [propagateIdx], ?_⟩
  exact h1.2.filter (q := fun t => decide (time fp a 1 < t)) (fun x hx _ => hx)

theorem hz_fits (hr : Range a) : (((a.duration * 1000000000 - time fp a 1 : ℤ)) : ℚ) / 1000000000 ≤ |dur a| - 1 / 100000 := by
  have h1 := size_bounds (fp := fp) hr
  have := time_pos (fp := fp) hr (le_refl 1) (by omega)
  have qd0 : (1:ℚ) ≤ dur a := by unfold dur; exact_mod_cast hr.dur0
  rw [abs_of_nonneg (by linarith)]
  have h2 : ((a.duration * 1000000000 - time fp a 1 : ℤ) : ℚ) ≤ ((a.duration * 1000000000 - 13000 : ℤ) : ℚ) := by
    exact_mod_cast (by omega)
  have h3 : ((a.duration * 1000000000 - 13000 : ℤ) : ℚ) / 1000000000 ≤ dur a - 1 / 100000 := by
    unfold dur
    push_cast
    rw [div_le_iff₀ (by norm_num)]
    linarith
  exact le_trans (div_le_div_of_nonneg_right h2 (by norm_num)) h3

theorem accepts (hr : Range a) : Accepts (fun p => ((team a d (num a)).find p).isSome) |dur a| [] ((calls fp a d).map HOp.meas) (accepted fp a d) := by
  obtain ⟨h1, -⟩ := size_bounds (fp := fp) hr
  obtain ⟨rest, h⟩ := calls_cons (fp := fp) (d := d) hr
  have hspec : ∀ m ∈ calls fp a d, ((team a d (num a)).find m.id).isSome = true ∧
      (m.t = time fp a 1 ∨ time fp a 1 + 13000 ≤ m.t) ∧ m.t ≤ a.duration * 1000000000 := by
    intro m hm
    have hs := calls_spec hm
    obtain ⟨k, k1, k2, k3⟩ := hs.time
    refine ⟨by rw [team_known]; simpa using hs.id, ?_, by rw [k3]; exact time_le hr k2⟩
    rw [k3]
    rcases Nat.lt_or_ge 1 k with hk | hk
    · exact Or.inr (time_lt hr hk k2)
    · rw [(by omega : k = 1)]; exact Or.inl rfl
  have h0 := hspec (propagateIdx fp a d 1 0) (by rw [h]; simp)
  rw [accepted_cons h, h, List.map_cons]
  refine .take h0.1 (Or.inl rfl) ?_
  refine accepts_rest (m0 := propagateIdx fp a d 1 0) (hz_fits hr) (by simp) ?_ (fun m hm => hspec m (by rw [h]; simp [hm]))
  intro x hx
  simp only [List.nil_append, List.mem_singleton] at hx
  rw [hx]
  exact ⟨le_refl _, h0.2.2⟩

/-! ## The main loop -/

theorem meas_ok (hr : Range a) {m : Meas Linear1D.Data} (hm : m ∈ calls fp a d) : MeasOk m ∧ m.t ≤ a.duration * 1000000000 ∧ 0 < m.t := by
  have hs := calls_spec hm
  obtain ⟨k, k1, k2, k3⟩ := hs.time
  have h1 := time_le (fp := fp) hr k2
  have h2 := time_pos (fp := fp) hr k1 k2
  have := hr.dur1
  exact ⟨⟨hs.kind, by omega, by omega⟩, by omega, by omega⟩

section
variable {S : Insts (Res Hdl) Linear1D.Data}

/-- A state of the handler's history that can have come about. -/
def Sound (fp : FP) (h : HState (Res Hdl) Linear1D.Data) : Prop := 0 ≤ h.hMeas ∧ ∃ A D, MInv fp h.hMeas A D h.meas

theorem Sound.call {h : HState (Res Hdl) Linear1D.Data} (hs : Sound fp h) {m : Meas Linear1D.Data} (hm : MeasOk m) :
    Sound fp (propCall fp S h m) ∧ updCall fp S h m = propCall fp S h m := by
  obtain ⟨h0, A, D, i⟩ := hs
  have e := (Handler.process_meas fp S h m).1
  refine ⟨?_, ?_⟩
  · unfold propCall Sound
    rw [e]
    refine ⟨h0, ?_⟩
    rcases inv_process fp S h h0 m hm A D i with ⟨-, h2⟩ | ⟨X, h2⟩
    · exact ⟨A, D, by rw [h2]; exact i⟩
    · exact ⟨_, _, h2⟩
  · unfold updCall propCall
    simp only
    rw [if_neg (process_answers fp S h h0 m hm A D i)]

theorem Sound.props {h : HState (Res Hdl) Linear1D.Data} {C : List (Meas Linear1D.Data)} (hs : Sound fp h) (hC : ∀ m ∈ C, MeasOk m) :
    Sound fp (C.foldl (propCall fp S) h) ∧ C.foldl (updCall fp S) h = C.foldl (propCall fp S) h := by
  induction C generalizing h with
  | nil => exact ⟨hs, rfl⟩
  | cons m C ih =>
    obtain ⟨h1, h2⟩ := hs.call (S := S) (hC m (by simp))
    simp only [List.foldl_cons]
    rw [h2]
    exact ih h1 (fun x hx => hC x (by simp [hx]))

theorem loop_eq (n : ℕ) (hC : ∀ m ∈ callsTo fp a d n, MeasOk m) {h : HState (Res Hdl) Linear1D.Data} (hs : Sound fp h) :
    Sound fp ((callsTo fp a d n).foldl (propCall fp S) h) ∧
    (List.range' 1 n).foldl (stepIdx fp a d S) h = (callsTo fp a d n).foldl (propCall fp S) h := by
  induction n with
  | zero => exact ⟨hs, rfl⟩
  | succ n ih =>
    rw [callsTo_succ] at hC ⊢
    obtain ⟨i1, i2⟩ := ih (fun m hm => hC m (by simp [hm]))
    have p1 := i1.props (S := S) (C := (List.range (num a)).map (propagateIdx fp a d (n + 1))) (fun m hm => hC m (List.mem_append_right _ (List.mem_append_left _ hm)))
    have p2 := p1.1.props (S := S) (C := (List.range (num a)).flatMap (updateIdx fp a d (n + 1))) (fun m hm => hC m (List.mem_append_right _ (List.mem_append_right _ hm)))
    rw [List.foldl_append, List.foldl_append, List.range'_concat, List.foldl_append, i2]
    refine ⟨p2.1, ?_⟩
    have : 1 + 1 * n = n + 1 := by omega
    rw [this]
    show stepIdx fp a d S _ (n + 1) = _
    unfold stepIdx
    exact p2.2

theorem run_eq (hr : Range a) (near : Mat → Mat) (g : ℕ → ℕ → ℝ) :
    run fp a d near g = ((calls fp a d).map HOp.meas).foldl (hStep fp (Hdl.userInsts fp near (Linear1D.user fp g))) (handler a d) := by
  have h := (loop_eq (d := d) (S := Hdl.userInsts fp near (Linear1D.user fp g)) (size fp a - 1) (fun m hm => (meas_ok hr hm).1) (h := handler a d)
    ⟨abs_nonneg _, [], [], MInv.nil fp _⟩).2
  unfold run
  rw [h, List.foldl_map]
  rfl

end

/-! ## C89 -/

variable (fp a d)

/-- The estimates the program reports (`calc_est_traj`) are those of the centralised filter that gets the measurements `K` up to the time of
the sample, for the samples in `at_`; the program does not crash. -/
def Follows (near : Mat → Mat) (g : ℕ → ℕ → ℝ) (K : List (Meas Linear1D.Data)) (at_ : ℕ → ℕ → Prop) : Prop :=
  ∃ h L, (run fp a d near g).w = .ok h ∧ Chronological K L ∧
    ∀ idx i, idx < size fp a → i < num a → at_ i idx →
      ∃ c, CentralRun (fun _ => 2) near (Linear1D.user fp g) (start d) (L.filter fun m => decide (m.t ≤ time fp a idx)) c ∧
        (∀ c', CentralRun (fun _ => 2) near (Linear1D.user fp g) (start d) (L.filter fun m => decide (m.t ≤ time fp a idx)) c' → c' = c) ∧
        c.tm i = time fp a idx ∧ est fp a d h i idx = ((c.mu i).e 0 0, (c.mu i).e 1 0)

variable {fp a d}

/-- C89. The sample times: from 0 to the duration, equidistant up to 2 ns, strictly increasing, as many as the rate asks for (one more or
less, by rounding of `D / dt`, and two at least). -/
theorem c89_times (hr : Range a) : time fp a 0 = 0 ∧ time fp a (size fp a - 1) = a.duration * 1000000000 ∧
    (∀ k < size fp a, |(time fp a k : ℚ) - k * (a.duration * 1000000000 / (size fp a - 1))| ≤ 2) ∧
    (∀ j k, j < k → k < size fp a → time fp a j < time fp a k) ∧
    2 ≤ size fp a ∧ a.duration * max 1 a.freq ≤ size fp a ∧ (size fp a : ℤ) ≤ a.duration * max 1 a.freq + 2 := by
  obtain ⟨s1, s2, s3⟩ := size_bounds3 (fp := fp) hr
  have hc : ((size fp a - 1 : ℕ) : ℚ) = (size fp a : ℚ) - 1 := by rw [Nat.cast_sub (by omega)]; simp
  refine ⟨time_zero, time_last hr, ?_, ?_, s1, ?_, ?_⟩
  · intro k hk
    have := time_err (fp := fp) hr (k := k) (by omega)
    unfold gap dur at this
    rw [hc] at this
    have e : (k : ℚ) * (a.duration * 1000000000 / (size fp a - 1)) = k * (a.duration / (size fp a - 1)) * 1000000000 := by ring
    rw [e]; exact this
  · intro j k hjk hk
    have := time_lt (fp := fp) hr hjk (by omega)
    omega
  · unfold dur at s3
    exact_mod_cast s3
  · rw [hc] at s2
    unfold dur at s2
    have : ((size fp a : ℤ) : ℚ) ≤ ((a.duration * max 1 a.freq + 2 : ℤ) : ℚ) := by
      push_cast at s2 ⊢
      linarith
    exact_mod_cast this

/-- C89. The measurements handed to the handler: for every instance and sample after the first a propagation with the noisy acceleration of
that sample; the noisy positions of all samples (if private observations are on for the instance) and the noisy positions of the next
instance relative to it (if joint observations are on), but for the last `delay` samples. Nothing else. -/
theorem c89_simulated (m : Meas Linear1D.Data) : m ∈ calls fp a d ↔
    ∃ k, 1 ≤ k ∧ k < size fp a ∧ m.t = time fp a k ∧ m.id < num a ∧
      ((m.kind = .propagation ∧ m.data = ⟨scalar (d.acc m.id k), scalar (a.stdA * a.stdA), 0⟩) ∨
       (m.kind = .priv ∧ k + a.delayPrivate < size fp a ∧ (a.firstPrivateOnly = true → m.id = 0) ∧
        m.data = ⟨scalar (d.pos m.id k), scalar (a.stdP * a.stdP), 0⟩) ∨
       (m.kind = .joint ∧ k + a.delayJoint < size fp a ∧ a.jointUpdates = true ∧ 1 < num a ∧
        m.data = ⟨scalar (d.rel m.id k), scalar (a.stdRel * a.stdRel), (m.id + 1) % num a⟩)) := by
  constructor
  · intro hm
    unfold calls at hm
    obtain ⟨idx, hidx, hm⟩ := List.mem_flatMap.mp hm
    have hi := List.mem_range'_1.mp hidx
    rcases List.mem_append.mp hm with hm | hm
    · obtain ⟨i, hi', rfl⟩ := List.mem_map.mp hm
      exact ⟨idx, hi.1, by omega, rfl, List.mem_range.mp hi', Or.inl ⟨rfl, rfl⟩⟩
    · obtain ⟨i, hi', hm⟩ := List.mem_flatMap.mp hm
      have hi' := List.mem_range.mp hi'
      unfold updateIdx at hm
      rcases List.mem_append.mp hm with hm | hm
      · unfold privateIdx at hm
        split at hm
        · rename_i hc
          obtain rfl := List.mem_singleton.mp hm
          refine ⟨idx - a.delayPrivate, by omega, by omega, rfl, hi', Or.inr (Or.inl ⟨rfl, by omega, ?_, rfl⟩)⟩
          intro hf
          by_contra h
          exact hc.1 ⟨hf, Nat.pos_of_ne_zero h⟩
        · simp at hm
      · unfold jointIdx at hm
        split at hm
        · rename_i hc
          obtain rfl := List.mem_singleton.mp hm
          exact ⟨idx - a.delayJoint, by omega, by omega, rfl, hi', Or.inr (Or.inr ⟨rfl, by omega, hc.1.1, hc.1.2, rfl⟩)⟩
        · simp at hm
  · obtain ⟨id, t, kind, data⟩ := m
    rintro ⟨k, k1, k2, h1, h2, h⟩
    simp only at h1 h2 h
    subst h1
    have hmem : ∀ idx, 1 ≤ idx → idx < size fp a → ∀ m, m ∈ updateIdx fp a d idx id → m ∈ calls fp a d := by
      intro idx i1 i2 m hm
      refine List.mem_flatMap.mpr ⟨idx, List.mem_range'_1.mpr ⟨i1, by omega⟩, List.mem_append_right _ ?_⟩
      exact List.mem_flatMap.mpr ⟨id, List.mem_range.mpr h2, hm⟩
    rcases h with ⟨rfl, rfl⟩ | ⟨rfl, hk, hf, rfl⟩ | ⟨rfl, hk, hj, hn, rfl⟩
    · exact prop_mem (d := d) k1 (by omega) h2
    · refine hmem (k + a.delayPrivate) (by omega) hk _ (List.mem_append_left _ ?_)
      unfold privateIdx
      rw [if_pos ⟨fun hc => by have := hf hc.1; omega, by omega⟩, Nat.add_sub_cancel]
      simp
    · refine hmem (k + a.delayJoint) (by omega) hk _ (List.mem_append_right _ ?_)
      unfold jointIdx
      rw [if_pos ⟨⟨hj, hn⟩, by omega⟩, Nat.add_sub_cancel]
      simp

/-- C89, with covariances and cross-covariances: the program does not crash, and for every sample the stored estimates up to its time agree
with the centralised filter that gets the accepted measurements up to its time.
Missing: the measurements of the first step (`c89_first_step_fails`). -/
theorem c89_history_partial (hr : Range a) (hm : ∀ i, (d.mean0 i).Shape 2 1) {near : Mat → Mat} (hnear : Hdl.NearOk near) (g : ℕ → ℕ → ℝ) :
    ∃ L h, Chronological (accepted fp a d) L ∧ (run fp a d near g).w = .ok h ∧ Hdl.Ordered h ∧ Hdl.SameDom (team a d (num a)) h ∧
      ∀ idx, 1 ≤ idx → idx < size fp a →
        ∃ c, CentralRun (fun _ => 2) near (Linear1D.user fp g) (start d) (L.filter fun m => decide (m.t ≤ time fp a idx)) c ∧
          (∀ c', CentralRun (fun _ => 2) near (Linear1D.user fp g) (start d) (L.filter fun m => decide (m.t ≤ time fp a idx)) c' → c' = c) ∧
          AgreesAt (fun _ => 2) h c (time fp a idx) := by
  obtain ⟨s1, -⟩ := size_bounds (fp := fp) hr
  have qd0 : (1:ℚ) ≤ dur a := by unfold dur; exact_mod_cast hr.dur0
  have qd1 : dur a ≤ 1000000 := by unfold dur; exact_mod_cast hr.dur1
  have habs : |dur a| = dur a := abs_of_nonneg (by linarith)
  have hd0 := hr.dur0
  have hd1 := hr.dur1
  set hi : Int := a.duration * 1000000000 with hhi
  have hteam : Hdl.Team fp (fun _ => 2) (team a d (num a)) (start d) (fun _ => hi) 0 hi := by
    refine ⟨team_init hm, fun _ _ => rfl, fun _ _ => ⟨le_refl _, le_refl _⟩, le_refl _, ?_⟩
    intro p i hf
    refine ⟨by omega, Or.inr ?_⟩
    rw [(team_spec _).2] at hf
    split at hf
    · rw [← Option.some.inj hf]
      show fp.secOfKey hi ≤ |dur a|
      rw [sec_last hr, habs]
    · simp at hf
  have hsub := accepted_sub (fp := fp) (d := d) hr
  have hready := accepted_ready (fp := fp) (d := d) hr
  obtain ⟨L, h, hL, e, ho, hdom, hall⟩ := Hdl.run_history (fp := fp) (span := ⌈|dur a| * 1000000000 + 10000⌉) hnear (Linear1D.proper fp g) GateOk.default hteam (dur a)
    (H := handler a d) (.setHorizon _ _ _) (by rw [habs]; linarith [show (1:ℚ) / 100000 ≤ 1 by norm_num]) (by rw [habs]; linarith) (Int.le_ceil _) (by omega) (by omega)
    ((calls fp a d).map HOp.meas) (accepted fp a d) (accepts hr)
    (by
      intro m hm'
      have : arrivals ((calls fp a d).map HOp.meas) = calls fp a d := by
        unfold arrivals
        rw [List.filterMap_map]
        exact List.filterMap_some
      rw [this] at hm'
      have := meas_ok hr hm'
      exact ⟨this.1, this.2.1⟩)
    (by
      intro n
      have hsubn := (List.take_sublist n (accepted fp a d)).trans hsub
      refine ⟨?_, ?_, List.Pairwise.sublist hsubn (once hr), ?_, ?_⟩
      · intro m hm'
        have hs := calls_spec (hsubn.subset hm')
        exact ⟨by rw [team_known]; simpa using hs.id, hs.kind, hs.ok⟩
      · intro m hm'
        have := meas_ok hr (hsubn.subset hm')
        omega
      · intro m hm' hk p hp
        have hs := calls_spec (hsubn.subset hm')
        have hp' : p < num a := by
          rcases List.mem_pair.mp hp with rfl | rfl
          · exact hs.id
          · exact hs.joint hk
        obtain ⟨x, hx, h1⟩ := hready.take n m hm' hk p hp
        exact ⟨by rw [team_known]; simpa using hp', x, by simpa using hx, h1⟩
      · intro o ho x hx _ _ _
        have h1 := meas_ok hr (hsubn.subset ho)
        have h2 := meas_ok hr (hsubn.subset hx)
        refine ⟨0, Or.inl rfl, by omega, ?_⟩
        show x.t - 0 ≤ hi
        omega)
  refine ⟨L, h, hL, ?_, ho, hdom, ?_⟩
  · rw [run_eq hr]; exact e
  · intro idx i1 i2
    obtain ⟨rest, hc⟩ := calls_cons (fp := fp) (d := d) hr
    refine hall (time fp a idx) (propagateIdx fp a d 1 0) (by rw [accepted_cons hc]; simp) ?_ ?_
    · show time fp a 1 ≤ time fp a idx
      rcases Nat.lt_or_ge 1 idx with h | h
      · have := time_lt (fp := fp) hr h (by omega); omega
      · rw [(by omega : idx = 1)]
    · intro y hy
      have h1 := (meas_ok hr (hsub.subset hy)).2.1
      have h2 := time_pos (fp := fp) hr (le_refl 1) (by omega)
      show y.t - time fp a 1 ≤ _
      have h3 : ((y.t - time fp a 1 : ℤ) : ℚ) ≤ |dur a| * 1000000000 + 10000 := by
        have : ((y.t - time fp a 1 : ℤ) : ℚ) ≤ ((hi : ℤ) : ℚ) := by exact_mod_cast (by omega)
        rw [habs]
        have h4 : ((hi : ℤ) : ℚ) = dur a * 1000000000 := by rw [hhi]; unfold dur; push_cast; ring
        linarith
      have h4 : ((y.t - time fp a 1 : ℤ) : ℚ) ≤ ((⌈|dur a| * 1000000000 + 10000⌉ : ℤ) : ℚ) := le_trans h3 (Int.le_ceil _)
      exact_mod_cast h4

/-- C89. For every number of instances, duration, rate, delays, noise and random numbers: the program does not crash, and the trajectory it
reports is that of the centralised filter that gets the accepted measurements: of those of the first step only the propagation of
instance 0, of the later ones all, each once and in chronological order. (From the second sample on for all instances.)
Missing: the measurements of the first step (`c89_first_step_fails`). -/
theorem c89_trajectory_partial (hr : Range a) (hm : ∀ i, (d.mean0 i).Shape 2 1) {near : Mat → Mat} (hnear : Hdl.NearOk near) (g : ℕ → ℕ → ℝ) :
    Follows fp a d near g (accepted fp a d) (fun i idx => 2 ≤ idx ∨ (idx = 1 ∧ i = 0)) := by
  obtain ⟨L, h, hL, e, ho, hdom, hall⟩ := c89_history_partial (fp := fp) hr hm hnear g
  refine ⟨h, L, e, hL, ?_⟩
  intro idx i hidx hi hat
  obtain ⟨c, hrun, huniq, ha, -⟩ := hall idx (by omega) hidx
  obtain ⟨s1, -⟩ := size_bounds (fp := fp) hr
  have hx : propagateIdx fp a d idx i ∈ accepted fp a d := by
    rcases hat with h2 | ⟨rfl, rfl⟩
    · unfold accepted
      refine List.mem_append_right _ (List.mem_filter.mpr ⟨prop_mem (by omega) (by omega) hi, ?_⟩)
      have := time_lt (fp := fp) hr (show 1 < idx by omega) (by omega)
      show decide (time fp a 1 < time fp a idx) = true
      simp; omega
    · obtain ⟨rest, hc⟩ := calls_cons (fp := fp) (d := d) hr
      rw [accepted_cons hc]; simp
  have htm : c.tm i = time fp a idx := by
    rw [hrun.clock i]
    exact clock_eq i _ _ _ (List.Pairwise.sublist List.filter_sublist hL.2.1) (by intro m hm; simp at hm; exact hm.2)
      (x := propagateIdx fp a d idx i) (by rw [List.mem_filter]; exact ⟨hL.1.symm.subset hx, by simp [propagateIdx]⟩) rfl rfl rfl
  refine ⟨c, hrun, huniq, htm, ?_⟩
  have hp : (h.find i).isSome := by rw [hdom i, team_known]; simpa using hi
  obtain ⟨x, hx'⟩ := Option.isSome_iff_exists.mp hp
  obtain ⟨b, hb, hbm, -⟩ := ha i x hx'
  have hmem := (List.mem_filter.mp (List.mem_of_getLast? hb)).1
  rw [htm] at hmem
  have hat : x.beliefAt (time fp a idx) = some b := by
    rw [Inst.beliefAt_eq]
    exact (Buf.absMap_eq_some _ (ho.inst _ x hx').bel _ _).mpr hmem
  unfold est
  rw [hx']
  simp only [Option.bind_some, hat, hbm]

/-- C89 at the first sample: every instance but the first has no estimate; the program reports zeros. -/
theorem c89_first_sample (hr : Range a) (hm : ∀ i, (d.mean0 i).Shape 2 1) {near : Mat → Mat} (hnear : Hdl.NearOk near) (g : ℕ → ℕ → ℝ) :
    ∃ h, (run fp a d near g).w = .ok h ∧ ∀ i, 1 ≤ i → i < num a → est fp a d h i 1 = (0, 0) := by
  obtain ⟨L, h, hL, e, ho, hdom, hall⟩ := c89_history_partial (fp := fp) hr hm hnear g
  obtain ⟨s1, -⟩ := size_bounds (fp := fp) hr
  refine ⟨h, e, ?_⟩
  intro i i1 hi
  obtain ⟨c, hrun, -, ha, -⟩ := hall 1 (le_refl _) (by omega)
  have htm : c.tm i < time fp a 1 := by
    rw [hrun.clock i]
    refine clock_lt i _ _ _ (by have := time_pos (fp := fp) hr (le_refl 1) (by omega); show (0:ℤ) < _; omega) ?_
    intro m hmL _ hmi
    obtain ⟨rest, hc⟩ := calls_cons (fp := fp) (d := d) hr
    have h1 := List.mem_filter.mp hmL
    have h2 := hL.1.subset h1.1
    rw [accepted_cons hc] at h2
    rcases List.mem_cons.mp h2 with rfl | h2
    · change 0 = i at hmi
      omega
    · have := (List.mem_filter.mp h2).2
      have h3 := h1.2
      simp at this h3
      omega
  have hp : (h.find i).isSome := by rw [hdom i, team_known]; simpa using hi
  obtain ⟨x, hx⟩ := Option.isSome_iff_exists.mp hp
  obtain ⟨b, hb, -⟩ := ha i x hx
  have hnone : x.beliefAt (time fp a 1) = none := by
    cases hbe : x.beliefAt (time fp a 1) with
    | none => rfl
    | some b' =>
      rw [Inst.beliefAt_eq, Buf.absMap_eq_some _ (ho.inst _ x hx).bel] at hbe
      have hs : Buf.SortedKeys (x.bel.filter fun e => decide (e.1 ≤ time fp a 1)) :=
        List.Pairwise.sublist List.filter_sublist (ho.inst _ x hx).bel.sorted
      have := hs.le_getLast hb (time fp a 1, b') (List.mem_filter.mpr ⟨hbe, by simp⟩)
      simp only at this
      omega
  unfold est
  rw [hx]
  simp only [Option.bind_some, hnone]
  rw [if_neg (by omega)]

namespace Example

/-- Two instances, one second, one sample, no observations. -/
def args : Args := ⟨2, 1, 1, true, false, 10, 10, 1, 1, 1⟩

/-- Both at position 1, at rest, no acceleration. -/
def draws : Draws := ⟨fun _ => of 2 1 fun i _ => if i = 0 then 1 else 0, fun _ _ => 0, fun _ _ => 0, fun _ _ => 0⟩

theorem range : Range args := ⟨by decide, by decide, by decide⟩

theorem rest_stays {fp : FP} {near : Mat → Mat} {g : ℕ → ℕ → ℝ} {L : List (Meas Linear1D.Data)} {c : Central}
    (h : CentralRun (fun _ => 2) near (Linear1D.user fp g) (start draws) L c)
    (hL : ∀ m ∈ L, m.kind = .propagation ∧ m.data.z = scalar 0 ∧ m.data.R = scalar 1) (p : ℕ) :
    (c.mu p).Shape 2 1 ∧ (c.mu p).e 0 0 = 1 ∧ (c.mu p).e 1 0 = 0 := by
  induction h generalizing p with
  | nil => exact ⟨⟨rfl, rfl⟩, by simp [start, draws, of], by simp [start, draws, of]⟩
  | snoc r h ih =>
    rename_i L c m c'
    have ih := ih (fun x hx => hL x (by simp [hx]))
    obtain ⟨hk, hz, hR⟩ := hL m (by simp)
    cases h with
    | prop mb Phi Q _ hk' hlt hU hs =>
      obtain ⟨i1, i2, i3⟩ := ih m.id
      obtain ⟨mb', Phi', Q', e, s1, s2, s3⟩ := Linear1D.c87_motion fp m.id (m := m.data) (by rw [hz]; exact ⟨rfl, rfl⟩) (by rw [hR]; exact ⟨rfl, rfl⟩) (c.tm m.id) m.t i1
      have hU' : Linear1D.prop fp m.id m.data (c.tm m.id) m.t (c.mu m.id) = .ok (mb, Phi, Q) := hU
      rw [hU'] at e
      obtain ⟨rfl, -⟩ := Prod.mk.inj (Res.ok.inj e)
      have z0 : m.data.z.e 0 0 = 0 := by rw [hz]; simp [scalar, of]
      have v0 : Linear1D.vel (c.mu m.id) = 0 := i3
      have p0 : Linear1D.pos (c.mu m.id) = 1 := i2
      rw [z0, v0] at s2 s3
      rw [p0] at s2
      cases hs
      simp only [Central.transform]
      by_cases hp : p = m.id
      · rw [if_pos hp]
        refine ⟨s1, ?_, ?_⟩
        · change Linear1D.pos mb = 1
          rw [s2]; ring
        · change Linear1D.vel mb = 0
          rw [s3]; ring
      · rw [if_neg hp]; exact ih p
    | _ => simp_all

theorem calls_props {fp : FP} {m : Meas Linear1D.Data} (hm : m ∈ calls fp args draws) : m.kind = .propagation ∧ m.data.z = scalar 0 ∧ m.data.R = scalar 1 := by
  unfold calls at hm
  obtain ⟨idx, hidx, hm⟩ := List.mem_flatMap.mp hm
  have hi := List.mem_range'_1.mp hidx
  have hs := (size_bounds (fp := fp) range).2
  have : ((size fp args - 1 : ℕ) : ℚ) ≤ ((2 : ℕ) : ℚ) := by
    refine le_trans hs ?_
    simp [dur, args]
    norm_num
  have h2 : size fp args - 1 ≤ 2 := by exact_mod_cast this
  rcases List.mem_append.mp hm with hm | hm
  · obtain ⟨i, -, rfl⟩ := List.mem_map.mp hm
    refine ⟨rfl, rfl, ?_⟩
    simp [propagateIdx, args]
  · obtain ⟨i, -, hm⟩ := List.mem_flatMap.mp hm
    have hpriv : privateIdx fp args draws idx i = [] := by
      unfold privateIdx
      rw [if_neg]
      rintro ⟨-, h⟩
      change 10 < idx at h
      omega
    have hjoint : jointIdx fp args draws idx i = [] := by
      unfold jointIdx
      rw [if_neg]
      rintro ⟨⟨h, -⟩, -⟩
      simp [args] at h
    unfold updateIdx at hm
    rw [hpriv, hjoint] at hm
    simp at hm

end Example

/-- C89 fails at the first sample: two bodies at position 1 at rest; the centralised filter that gets all measurements estimates position 1,
the program reports position 0 for the second body, whatever the rounding. -/
theorem c89_first_step_fails (fp : FP) (near : Mat → Mat) (hnear : Hdl.NearOk near) (g : ℕ → ℕ → ℝ) :
    ¬ Follows fp Example.args Example.draws near g (calls fp Example.args Example.draws) (fun _ idx => 1 ≤ idx) := by
  rintro ⟨h, L, e, hL, hall⟩
  obtain ⟨s1, -⟩ := size_bounds (fp := fp) Example.range
  obtain ⟨c, hrun, -, -, hest⟩ := hall 1 1 (by omega) (by decide) (le_refl _)
  obtain ⟨h', e', hz⟩ := c89_first_sample (fp := fp) (a := Example.args) (d := Example.draws) Example.range (fun _ => ⟨rfl, rfl⟩) hnear g
  rw [e] at e'
  obtain rfl := Res.ok.inj e'
  rw [hz 1 (le_refl _) (by decide)] at hest
  have := (Example.rest_stays hrun (fun m hm => Example.calls_props (hL.1.subset (List.mem_filter.mp hm).1)) 1).2.1
  rw [(Prod.mk.inj hest).1.symm] at this
  exact zero_ne_one this

/-- The premises of C89 hold for the program's default options. -/
example : Range ⟨4, 5, 100, true, true, 1, 1, 1, 1, 1⟩ := ⟨by decide, by decide, by decide⟩

end DelayDemo
end Ikf
