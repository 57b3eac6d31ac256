import Verif.Model.Collab
import Verif.Lemmas.Central
import Verif.Lemmas.Frame

/-!
# Handlers spread over agents against one handler

`Dist T n h`: the agents `n` together hold exactly the instances of `h`, each at the agent the lookup table names.
-/

namespace Ikf
open Mat

/-- Same outcome, related values. -/
def RR {α β : Type _} (R : α → β → Prop) : Res α → Res β → Prop
  | .ok a, .ok b => R a b
  | .throws, .throws => True
  | .ub, .ub => True
  | _, _ => False

theorem RR.bind {α β γ δ : Type _} {R : α → β → Prop} {Q : γ → δ → Prop} {x : Res α} {y : Res β} {f : α → Res γ} {g : β → Res δ}
    (h : RR R x y) (hf : ∀ a b, R a b → RR Q (f a) (g b)) : RR Q (x >>= f) (y >>= g) := by
  cases x <;> cases y <;> simp only [RR] at h
  · exact hf _ _ h
  · exact trivial
  · exact trivial

theorem RR.refl {α : Type _} (x : Res α) : RR Eq x x := by cases x <;> simp [RR]

theorem RR.bind_same {α γ δ : Type _} {Q : γ → δ → Prop} (x : Res α) {f : α → Res γ} {g : α → Res δ}
    (hf : ∀ a, x = .ok a → RR Q (f a) (g a)) : RR Q (x >>= f) (x >>= g) := by
  cases x with
  | ok a => exact hf a rfl
  | throws => exact trivial
  | ub => exact trivial

theorem RR.ok_left {α β : Type _} {R : α → β → Prop} {x : Res α} {y : Res β} (h : RR R x y) {a : α} (ha : x = .ok a) :
    ∃ b, y = .ok b ∧ R a b := by
  subst ha
  cases y with
  | ok b => exact ⟨b, rfl, h⟩
  | throws => exact absurd h (by simp [RR])
  | ub => exact absurd h (by simp [RR])

theorem RR.ok_right {α β : Type _} {R : α → β → Prop} {x : Res α} {y : Res β} (h : RR R x y) {b : β} (hb : y = .ok b) :
    ∃ a, x = .ok a ∧ R a b := by
  subst hb
  cases x with
  | ok a => exact ⟨a, rfl, h⟩
  | throws => exact absurd h (by simp [RR])
  | ub => exact absurd h (by simp [RR])

namespace Collab

/-- Access to instances by ID. -/
structure Store (σ : Type _) where
  get : σ → ℕ → Res Inst
  put : σ → ℕ → Inst → σ

/-- The state of the store is the part `D` of the handler. -/
structure Sim {σ : Type _} (S : Store σ) (R : σ → Hdl → Prop) (D : ℕ → Prop) : Prop where
  get : ∀ s h p, R s h → D p → S.get s p = Hdl.get h p
  put : ∀ s h p i, R s h → D p → (h.find p).isSome → R (S.put s p i) (h.set p i)

namespace G
variable {σ : Type _} (S : Store σ)

def getSigma (n : σ) (I J : ℕ) (t : Int) : Res Mat := do
  let i ← S.get n I
  let j ← S.get n J
  let FIJ := i.getCCF t J
  let FJI := j.getCCF t I
  if FIJ.size ≠ 0 ∧ FJI.size ≠ 0 then
    if I < J then FIJ *! FJI.tr
    else do
      let SJI ← FJI *! FIJ.tr
      .ok SJI.tr
  else .ok Mat.empty

def setSigma (n : σ) (I J : ℕ) (M : Mat) (t : Int) : Res σ :=
  if I < J then do
    let i ← S.get n I
    let n1 := S.put n I (i.setCCF t J M)
    let j ← S.get n1 J
    .ok (S.put n1 J (j.setCCF t I (one M.cols)))
  else do
    let SJI := M.tr
    let j ← S.get n J
    let n1 := S.put n J (j.setCCF t I SJI)
    let i ← S.get n1 I
    .ok (S.put n1 I (i.setCCF t J (one SJI.cols)))

def predictOne (pred : ℕ → Inst → Int → Inst × Bool) (n : σ) (id : ℕ) (t : Int) (i : Inst) : σ × Option Belief :=
  if i.bel.existAt t then (n, i.beliefAt t)
  else (S.put n id (pred id i t).1, if (pred id i t).2 then (pred id i t).1.beliefAt t else none)

def getDictBel (pred : ℕ → Inst → Int → Inst × Bool) : σ → List ℕ → Int → SMap Belief → Res (σ × SMap Belief)
  | n, [], _, acc => .ok (n, acc)
  | n, id :: r, t, acc => do
    let i ← S.get n id
    let x := predictOne S pred n id t i
    match x.2 with
    | none => .ok (x.1, [])
    | some b => getDictBel pred x.1 r t (acc.emplace id b)

def stackRow (n : σ) (t : Int) (e : ℕ × Belief) (row : ℕ) : SMap Belief → ℕ → Mat → Res Mat
  | [], _, M => .ok M
  | b :: r, col, M =>
    if !b.2.fixed then do
      let M1 ← (if e.1 = b.1 then M.setBlockC row col e.2.dim b.2.dim e.2.Sigma
        else if e.1 < b.1 then do
          let X ← getSigma S n e.1 b.1 t
          if X.size ≠ 0 then do
            let M2 ← M.setBlockC row col e.2.dim b.2.dim X
            M2.setBlockC col row b.2.dim e.2.dim X.tr
          else .ok M
        else .ok M : Res Mat)
      stackRow n t e row r (col + b.2.dim) M1
    else stackRow n t e row r col M

def stackRows (n : σ) (t : Int) (d : SMap Belief) : SMap Belief → ℕ → Mat → Res Mat
  | [], _, M => .ok M
  | e :: r, row, M =>
    if !e.2.fixed then do
      let M1 ← stackRow S n t e row d 0 M
      stackRows n t d r (row + e.2.dim) M1
    else stackRows n t d r row M

noncomputable def applyCorr (P : Mat) (t : Int) : SMap Belief → ℕ → σ → Res σ
  | [], _, n => .ok n
  | e :: r, row, n =>
    if !e.2.fixed then do
      let B ← P.blockC row row e.2.dim e.2.dim
      let i ← S.get n e.1
      let j ← i.applyCorrectionSigma t e.2.Sigma B
      applyCorr P t r (row + e.2.dim) (S.put n e.1 j)
    else applyCorr P t r row n

def splitRow (P : Mat) (t : Int) (I : ℕ) (di row : ℕ) : List (ℕ × ℕ) → ℕ → σ → Res σ
  | [], _, n => .ok n
  | (J, dj) :: r, col, n => do
    let B ← P.blockC row col di dj
    let n1 ← setSigma S n I J B t
    splitRow P t I di row r (col + dj) n1

def splitRows (P : Mat) (t : Int) : List (ℕ × ℕ) → ℕ → ℕ → σ → Res σ
  | [], _, _, n => .ok n
  | (I, di) :: r, row, off, n => do
    let n1 ← splitRow S P t I di row r (off + di) n
    splitRows P t r (row + di) (off + di) n1

def correctBeliefs (P dx : Mat) (t : Int) : SMap Belief → ℕ → σ → Res σ
  | [], _, n => .ok n
  | e :: r, row, n =>
    if !e.2.fixed then do
      let B ← P.blockC row row e.2.dim e.2.dim
      let x ← dx.blockC row 0 e.2.dim 1
      let b ← e.2.correct x B
      let i ← S.get n e.1
      correctBeliefs P dx t r (row + e.2.dim) (S.put n e.1 (i.setBelief b t))
    else correctBeliefs P dx t r row n

/-! ## The generic loops simulate the handler -/

variable {S} {R : σ → Hdl → Prop} {D : ℕ → Prop} {n : σ} {h : Hdl}

theorem get_isSome {h : Hdl} {p : ℕ} {i : Inst} (hg : Hdl.get h p = .ok i) : (h.find p).isSome := by
  rw [Hdl.get_eq_ok hg]; rfl

theorem getSigma_sim (hS : Sim S R D) (hR : R n h) {I J : ℕ} (hI : D I) (hJ : D J) (t : Int) :
    getSigma S n I J t = Hdl.getSigma h I J t := by
  unfold getSigma Hdl.getSigma
  rw [hS.get n h I hR hI, hS.get n h J hR hJ]

theorem setSigma_sim (hS : Sim S R D) (hR : R n h) {I J : ℕ} (hI : D I) (hJ : D J) (M : Mat) (t : Int) :
    RR R (setSigma S n I J M t) (Hdl.setSigma h I J M t) := by
  unfold setSigma Hdl.setSigma
  split
  · rw [hS.get n h I hR hI]
    refine RR.bind_same _ fun i hi => ?_
    have h1 := hS.put n h I (i.setCCF t J M) hR hI (get_isSome hi)
    dsimp only
    rw [hS.get _ _ J h1 hJ]
    exact RR.bind_same _ fun j hj => hS.put _ _ J _ h1 hJ (get_isSome hj)
  · rw [hS.get n h J hR hJ]
    refine RR.bind_same _ fun j hj => ?_
    have h1 := hS.put n h J (j.setCCF t I M.tr) hR hJ (get_isSome hj)
    dsimp only
    rw [hS.get _ _ I h1 hI]
    exact RR.bind_same _ fun i hi => hS.put _ _ I _ h1 hI (get_isSome hi)

theorem getDictBel_sim (hS : Sim S R D) (pred : ℕ → Inst → Int → Inst × Bool) (t : Int) (ids : List ℕ) (hD : ∀ p ∈ ids, D p) :
    ∀ (n : σ) (h : Hdl) (acc : SMap Belief), R n h →
      RR (fun x y => R x.1 y.1 ∧ x.2 = y.2) (getDictBel S pred n ids t acc) (Hdl.getDictBel pred h ids t acc) := by
  induction ids with
  | nil => intro n h acc hR; exact ⟨hR, rfl⟩
  | cons id r ih =>
    intro n h acc hR
    rw [getDictBel, Hdl.getDictBel, Hdl.beliefPredict, hS.get n h id hR (hD id List.mem_cons_self)]
    cases hg : Hdl.get h id with
    | throws => exact trivial
    | ub => exact trivial
    | ok i =>
      have hp := fun j => hS.put n h id j hR (hD id List.mem_cons_self) (get_isSome hg)
      rw [Res.bind_ok, Res.bind_ok]
      unfold predictOne
      by_cases he : i.bel.existAt t = true
      · rw [if_pos he, if_pos he, Res.bind_ok]
        simp only
        cases i.beliefAt t with
        | none => exact ⟨hR, rfl⟩
        | some b => exact ih (fun p hp => hD p (List.mem_cons_of_mem _ hp)) n h _ hR
      · rw [if_neg he, if_neg he, Res.bind_ok]
        simp only
        cases (if (pred id i t).2 = true then (pred id i t).1.beliefAt t else none) with
        | none => exact ⟨hp _, rfl⟩
        | some b => exact ih (fun p hp => hD p (List.mem_cons_of_mem _ hp)) _ _ _ (hp _)

theorem stackRow_sim (hS : Sim S R D) (hR : R n h) (t : Int) (e : ℕ × Belief) (he : D e.1) (row : ℕ) (d : SMap Belief)
    (hD : ∀ x ∈ d, D x.1) : ∀ col M, stackRow S n t e row d col M = Hdl.stackRow h t e row d col M := by
  induction d with
  | nil => intro _ _; rfl
  | cons b r ih =>
    intro col M
    have ih' := ih (fun x hx => hD x (List.mem_cons_of_mem _ hx))
    rw [stackRow, Hdl.stackRow, getSigma_sim hS hR he (hD b List.mem_cons_self)]
    simp only [ih']

theorem stackRows_sim (hS : Sim S R D) (hR : R n h) (t : Int) (d0 : SMap Belief) (hD0 : ∀ x ∈ d0, D x.1) (d : SMap Belief)
    (hD : ∀ x ∈ d, D x.1) : ∀ row M, stackRows S n t d0 d row M = Hdl.stackRows h t d0 d row M := by
  induction d with
  | nil => intro _ _; rfl
  | cons b r ih =>
    intro row M
    have ih' := ih (fun x hx => hD x (List.mem_cons_of_mem _ hx))
    rw [stackRows, Hdl.stackRows]
    simp only [stackRow_sim hS hR t b (hD b List.mem_cons_self) row d0 hD0, ih']

theorem applyCorr_sim (hS : Sim S R D) (P : Mat) (t : Int) (d : SMap Belief) (hD : ∀ x ∈ d, D x.1) :
    ∀ (row : ℕ) (n : σ) (h : Hdl), R n h → RR R (applyCorr S P t d row n) (Hdl.applyCorrections P t d row h) := by
  induction d with
  | nil => intro _ _ _ hR; exact hR
  | cons e r ih =>
    intro row n h hR
    have ih' := ih (fun x hx => hD x (List.mem_cons_of_mem _ hx))
    rw [applyCorr, Hdl.applyCorrections]
    split
    · refine RR.bind_same _ fun B _ => ?_
      rw [hS.get n h e.1 hR (hD e List.mem_cons_self)]
      refine RR.bind_same _ fun i hi => ?_
      refine RR.bind_same _ fun j _ => ?_
      exact ih' _ _ _ (hS.put n h e.1 j hR (hD e List.mem_cons_self) (get_isSome hi))
    · exact ih' _ _ _ hR

theorem splitRow_sim (hS : Sim S R D) (P : Mat) (t : Int) (I di row : ℕ) (hI : D I) (l : List (ℕ × ℕ)) (hD : ∀ x ∈ l, D x.1) :
    ∀ (col : ℕ) (n : σ) (h : Hdl), R n h → RR R (splitRow S P t I di row l col n) (Hdl.splitRow P t I di row l col h) := by
  induction l with
  | nil => intro _ _ _ hR; exact hR
  | cons e r ih =>
    intro col n h hR
    have ih' := ih (fun x hx => hD x (List.mem_cons_of_mem _ hx))
    rw [splitRow, Hdl.splitRow]
    refine RR.bind_same _ fun B _ => ?_
    exact RR.bind (setSigma_sim hS hR hI (hD e List.mem_cons_self) B t) fun n1 h1 hR1 => ih' _ _ _ hR1

theorem splitRows_sim (hS : Sim S R D) (P : Mat) (t : Int) (l : List (ℕ × ℕ)) (hD : ∀ x ∈ l, D x.1) :
    ∀ (row off : ℕ) (n : σ) (h : Hdl), R n h → RR R (splitRows S P t l row off n) (Hdl.splitRows P t l row off h) := by
  induction l with
  | nil => intro _ _ _ _ hR; exact hR
  | cons e r ih =>
    intro row off n h hR
    have hr := fun x hx => hD x (List.mem_cons_of_mem _ hx)
    rw [splitRows, Hdl.splitRows]
    exact RR.bind (splitRow_sim hS P t e.1 e.2 row (hD e List.mem_cons_self) r hr _ n h hR) fun n1 h1 hR1 => ih hr _ _ _ _ hR1

theorem correctBeliefs_sim (hS : Sim S R D) (P dx : Mat) (t : Int) (d : SMap Belief) (hD : ∀ x ∈ d, D x.1) :
    ∀ (row : ℕ) (n : σ) (h : Hdl), R n h → RR R (correctBeliefs S P dx t d row n) (Hdl.correctBeliefs P dx t d row h) := by
  induction d with
  | nil => intro _ _ _ hR; exact hR
  | cons e r ih =>
    intro row n h hR
    have ih' := ih (fun x hx => hD x (List.mem_cons_of_mem _ hx))
    rw [correctBeliefs, Hdl.correctBeliefs]
    split
    · refine RR.bind_same _ fun B _ => ?_
      refine RR.bind_same _ fun x _ => ?_
      refine RR.bind_same _ fun b _ => ?_
      rw [hS.get n h e.1 hR (hD e List.mem_cons_self)]
      refine RR.bind_same _ fun i hi => ?_
      exact ih' _ _ _ (hS.put n h e.1 _ hR (hD e List.mem_cons_self) (get_isSome hi))
    · exact ih' _ _ _ hR

end G

/-! ## The handler itself as a store -/

/-- One handler. -/
def hdlStore : Store Hdl := ⟨Hdl.get, fun h p i => h.set p i⟩

theorem hdlSelf : Sim hdlStore (fun a b => a = b) (fun _ => True) :=
  ⟨fun _ _ _ e _ => by rw [e]; rfl, fun _ _ _ _ e _ _ => by rw [e]; rfl⟩

theorem RR_eq {α : Type _} {x y : Res α} (h : RR (fun a b => a = b) x y) : x = y := by
  cases x <;> cases y <;> simp_all [RR]

theorem RR_eq2 {α β : Type _} {x y : Res (α × β)} (h : RR (fun a b => a.1 = b.1 ∧ a.2 = b.2) x y) : x = y := by
  cases x <;> cases y <;> simp_all [RR, Prod.ext_iff]

/-- Two handlers that agree on `D` behave alike there. -/
theorem hdl_getDictBel {R : Hdl → Hdl → Prop} {D : ℕ → Prop} (hS : Sim hdlStore R D) (pred) (t : Int) (ids : List ℕ)
    (hD : ∀ p ∈ ids, D p) (l h : Hdl) (hR : R l h) (acc : SMap Belief) :
    RR (fun x y => R x.1 y.1 ∧ x.2 = y.2) (Hdl.getDictBel pred l ids t acc) (Hdl.getDictBel pred h ids t acc) := by
  rw [← RR_eq2 (G.getDictBel_sim hdlSelf pred t ids (fun _ _ => trivial) l l acc rfl)]
  exact G.getDictBel_sim hS pred t ids hD l h acc hR

theorem hdl_stackSigma {R : Hdl → Hdl → Prop} {D : ℕ → Prop} (hS : Sim hdlStore R D) (t : Int) (d : SMap Belief)
    (hD : ∀ x ∈ d, D x.1) {l h : Hdl} (hR : R l h) : Hdl.stackSigma l d t = Hdl.stackSigma h d t := by
  unfold Hdl.stackSigma
  rw [← G.stackRows_sim hS hR t d hD d hD, G.stackRows_sim hdlSelf (rfl : l = l) t d (fun _ _ => trivial) d (fun _ _ => trivial)]

theorem hdl_commit {R : Hdl → Hdl → Prop} {D : ℕ → Prop} (hS : Sim hdlStore R D) (d : SMap Belief) (P dx : Mat) (t : Int)
    (hD : ∀ x ∈ d, D x.1) {l h : Hdl} (hR : R l h) : RR R (Hdl.commit l d P dx t) (Hdl.commit h d P dx t) := by
  unfold Hdl.commit
  refine RR.bind (R := R) ?_ fun l1 h1 hR1 => RR.bind (R := R) ?_ fun l2 h2 hR2 => ?_
  · rw [← RR_eq (G.applyCorr_sim hdlSelf P t d (fun _ _ => trivial) 0 l l rfl)]
    exact G.applyCorr_sim hS P t d hD 0 l h hR
  · unfold Hdl.splitRightUpper
    dsimp only
    split
    · exact trivial
    · rw [← RR_eq (G.splitRows_sim hdlSelf P t _ (fun _ _ => trivial) 0 0 l1 l1 rfl)]
      refine G.splitRows_sim hS P t _ ?_ 0 0 l1 h1 hR1
      intro x hx
      obtain ⟨e, he, rfl⟩ := List.mem_map.mp hx
      exact hD e (List.mem_filter.mp he).1
  · rw [← RR_eq (G.correctBeliefs_sim hdlSelf P dx t d (fun _ _ => trivial) 0 l2 l2 rfl)]
    exact G.correctBeliefs_sim hS P dx t d hD 0 l2 h2 hR2

theorem getDictBel_keys {pred : ℕ → Inst → Int → Inst × Bool} {t : Int} (ids : List ℕ) :
    ∀ {h : Hdl} {acc : SMap Belief} {x : Hdl × SMap Belief}, Hdl.getDictBel pred h ids t acc = .ok x →
      ∀ e ∈ x.2, e ∈ acc ∨ e.1 ∈ ids := by
  induction ids with
  | nil => intro h acc x hx e he; rw [Hdl.getDictBel] at hx; rw [← Res.ok.inj hx] at he; exact Or.inl he
  | cons id r ih =>
    intro h acc x hx e he
    rw [Hdl.getDictBel] at hx
    obtain ⟨y, hy, hx⟩ := Hdl.bind_eq_ok hx
    cases hb : y.2 with
    | none => rw [hb] at hx; rw [← Res.ok.inj hx] at he; simp at he
    | some b =>
      rw [hb] at hx
      rcases ih hx e he with h1 | h1
      · unfold SMap.emplace at h1
        split at h1
        · exact Or.inl h1
        · rcases SMap.mem_set _ _ _ _ h1 with rfl | h2
          · exact Or.inr List.mem_cons_self
          · exact Or.inl h2
      · exact Or.inr (List.mem_cons_of_mem _ h1)

/-- `R` on the states, same answer. -/
def RA {σ : Type _} (R : σ → Hdl → Prop) : σ × Bool → Hdl × Bool → Prop := fun x y => R x.1 y.1 ∧ x.2 = y.2

theorem hdl_correctJoint {R : Hdl → Hdl → Prop} {D : ℕ → Prop} (hS : Sim hdlStore R D) (near) (d : SMap Belief) (H Rm r S : Mat)
    (t : Int) (cfg : Cfg) (hD : ∀ x ∈ d, D x.1) {l h : Hdl} (hR : R l h) :
    RR (RA R) (Hdl.correctJoint near l d H Rm r S t cfg) (Hdl.correctJoint near h d H Rm r S t cfg) := by
  unfold Hdl.correctJoint
  refine RR.bind_same _ fun res _ => ?_
  split
  · exact RR.bind (hdl_commit hS d _ _ t hD hR) fun l1 h1 hR1 => ⟨hR1, rfl⟩
  · exact ⟨hR, rfl⟩

/-- A joint observation whose participants are all in `D` depends on and changes only `D`. -/
theorem hdl_applyObsR {R : Hdl → Hdl → Prop} {D : ℕ → Prop} (hS : Sim hdlStore R D) (near pred) (dH : SMap Mat) (Rm r : Mat)
    (t : Int) (cfg : Cfg) (hD : ∀ p ∈ dH.keys, D p) {l h : Hdl} (hR : R l h) :
    RR (RA R) (Hdl.applyObsR near pred l dH Rm r t cfg) (Hdl.applyObsR near pred h dH Rm r t cfg) := by
  unfold Hdl.applyObsR
  refine RR.bind_same _ fun H _ => ?_
  cases hx : Hdl.getDictBel pred h dH.keys t [] with
  | throws => have := hdl_getDictBel hS pred t dH.keys hD l h hR []; rw [hx] at this
              cases hl : Hdl.getDictBel pred l dH.keys t [] <;> rw [hl] at this <;> simp_all [RR]
  | ub => have := hdl_getDictBel hS pred t dH.keys hD l h hR []; rw [hx] at this
          cases hl : Hdl.getDictBel pred l dH.keys t [] <;> rw [hl] at this <;> simp_all [RR]
  | ok y =>
    obtain ⟨x, hl, hRx, hxy⟩ := (hdl_getDictBel hS pred t dH.keys hD l h hR []).ok_right hx
    have hDd : ∀ e ∈ y.2, D e.1 := by
      intro e he
      rcases getDictBel_keys _ hx e he with h1 | h1
      · simp at h1
      · exact hD _ h1
    rw [hl, Res.bind_ok, Res.bind_ok, hxy]
    split
    · exact ⟨hRx, rfl⟩
    · rw [hdl_stackSigma hS t y.2 hDd hRx]
      refine RR.bind_same _ fun S0 _ => RR.bind_same _ fun S _ => ?_
      exact hdl_correctJoint hS near y.2 H Rm r S t cfg hDd hRx

theorem hdl_applyObsZ {R : Hdl → Hdl → Prop} {D : ℕ → Prop} (hS : Sim hdlStore R D) (near pred) (dH : SMap Mat) (z Rm : Mat)
    (t : Int) (cfg : Cfg) (hD : ∀ p ∈ dH.keys, D p) {l h : Hdl} (hR : R l h) :
    RR (RA R) (Hdl.applyObsZ near pred l dH z Rm t cfg) (Hdl.applyObsZ near pred h dH z Rm t cfg) := by
  unfold Hdl.applyObsZ
  refine RR.bind_same _ fun H _ => ?_
  cases hx : Hdl.getDictBel pred h dH.keys t [] with
  | throws => have := hdl_getDictBel hS pred t dH.keys hD l h hR []; rw [hx] at this
              cases hl : Hdl.getDictBel pred l dH.keys t [] <;> rw [hl] at this <;> simp_all [RR]
  | ub => have := hdl_getDictBel hS pred t dH.keys hD l h hR []; rw [hx] at this
          cases hl : Hdl.getDictBel pred l dH.keys t [] <;> rw [hl] at this <;> simp_all [RR]
  | ok y =>
    obtain ⟨x, hl, hRx, hxy⟩ := (hdl_getDictBel hS pred t dH.keys hD l h hR []).ok_right hx
    have hDd : ∀ e ∈ y.2, D e.1 := by
      intro e he
      rcases getDictBel_keys _ hx e he with h1 | h1
      · simp at h1
      · exact hD _ h1
    rw [hl, Res.bind_ok, Res.bind_ok, hxy]
    split
    · exact ⟨hRx, rfl⟩
    · rw [hdl_stackSigma hS t y.2 hDd hRx]
      refine RR.bind_same _ fun m _ => RR.bind_same _ fun S0 _ => RR.bind_same _ fun Hm _ => RR.bind_same _ fun r _ =>
        RR.bind_same _ fun S _ => ?_
      exact hdl_correctJoint hS near y.2 H Rm r S t cfg hDd hRx

/-! ## Agents -/

/-- The agents `n` hold exactly the instances of `h`, each at the agent the lookup table names. -/
def Dist (T : Agents.Tables) (n : Net) (h : Hdl) : Prop :=
  ∀ b p, (n b).find p = if Agents.agentOf T p = b then h.find p else none

variable {T : Agents.Tables} {a : ℕ} {n : Net} {h : Hdl}

theorem Dist.own (hd : Dist T n h) (p : ℕ) : (n (Agents.agentOf T p)).find p = h.find p := by rw [hd, if_pos rfl]

theorem Dist.local (hd : Dist T n h) {p : ℕ} (hp : ((n a).find p).isSome) : Agents.agentOf T p = a := by
  rw [hd] at hp
  by_contra hne
  rw [if_neg hne] at hp
  simp at hp

theorem Dist.serv (hd : Dist T n h) (p : ℕ) : Net.serv T a n p = Agents.agentOf T p := by
  unfold Net.serv
  split
  · rename_i hp; exact (hd.local hp).symm
  · rfl

theorem Dist.set (hd : Dist T n h) (p : ℕ) (i : Inst) :
    Dist T (Function.update n (Agents.agentOf T p) ((n (Agents.agentOf T p)).set p i)) (h.set p i) := by
  intro b q
  by_cases hb : b = Agents.agentOf T p
  · subst hb
    rw [Function.update_self, SMap.find_set, SMap.find_set, hd]
    by_cases hpq : p = q
    · subst hpq; simp
    · simp [hpq]
  · rw [Function.update_of_ne hb, hd, SMap.find_set]
    by_cases hpq : p = q
    · subst hpq
      rw [if_neg (fun e => hb e.symm), if_neg (fun e => hb e.symm)]
    · rw [if_neg hpq]

/-- Access through the agents is access to the one handler. -/
theorem netSim (T : Agents.Tables) (a : ℕ) : Sim ⟨Net.get T a, Net.put T a⟩ (Dist T) (fun _ => True) where
  get n h p hd _ := by
    show Hdl.get (n (Net.serv T a n p)) p = _
    unfold Hdl.get
    rw [hd.serv, hd.own]
  put n h p i hd _ _ := by
    show Dist T (Function.update n (Net.serv T a n p) _) _
    rw [hd.serv]; exact hd.set p i

/-- Agent `a` works on its own instances: `l` is its handler, the others are as in `n`. -/
theorem localSim (T : Agents.Tables) (a : ℕ) (n : Net) :
    Sim hdlStore (fun l h => Dist T (Function.update n a l) h) (fun p => Agents.agentOf T p = a) where
  get l h p hd hp := by
    show Hdl.get l p = _
    unfold Hdl.get
    have := hd.own p
    rw [hp, Function.update_self] at this
    rw [this]
  put l h p i hd hp _ := by
    have := hd.set p i
    rw [hp, Function.update_self, Function.update_idem] at this
    exact this

namespace Net
open Hdl (unfixed)

theorem getDictBel_eq (T : Agents.Tables) (a : ℕ) (pred) (t : Int) (ids : List ℕ) : ∀ (n : Net) (acc : SMap Belief),
    Net.getDictBel T a pred n ids t acc = G.getDictBel ⟨Net.get T a, Net.put T a⟩ pred n ids t acc := by
  induction ids with
  | nil => intro _ _; rfl
  | cons id r ih => intro n acc; rw [Net.getDictBel, G.getDictBel]; simp only [ih]; rfl

theorem stackRow_eq (T : Agents.Tables) (a : ℕ) (n : Net) (t : Int) (e : ℕ × Belief) (row : ℕ) (d : SMap Belief) : ∀ col M,
    Net.stackRow T a n t e row d col M = G.stackRow ⟨Net.get T a, Net.put T a⟩ n t e row d col M := by
  induction d with
  | nil => intro _ _; rfl
  | cons b r ih => intro col M; rw [Net.stackRow, G.stackRow]; simp only [ih]; rfl

theorem stackRows_eq (T : Agents.Tables) (a : ℕ) (n : Net) (t : Int) (d0 d : SMap Belief) : ∀ row M,
    Net.stackRows T a n t d0 d row M = G.stackRows ⟨Net.get T a, Net.put T a⟩ n t d0 d row M := by
  induction d with
  | nil => intro _ _; rfl
  | cons b r ih => intro col M; rw [Net.stackRows, G.stackRows]; simp only [ih, stackRow_eq]

theorem applyCorr_eq (T : Agents.Tables) (a : ℕ) (P : Mat) (t : Int) (d : SMap Belief) (hu : ∀ e ∈ d, e.2.fixed = false) : ∀ row n,
    Net.applyCorr T a P t d row n = G.applyCorr ⟨Net.get T a, Net.put T a⟩ P t d row n := by
  induction d with
  | nil => intro _ _; rfl
  | cons b r ih =>
    intro row n
    rw [Net.applyCorr, G.applyCorr, hu b List.mem_cons_self, if_pos (by rfl)]
    simp only [ih (fun e he => hu e (List.mem_cons_of_mem _ he))]

theorem splitRow_eq (T : Agents.Tables) (a : ℕ) (P : Mat) (t : Int) (I di row : ℕ) (l : List (ℕ × ℕ)) : ∀ col n,
    Net.splitRow T a P t I di row l col n = G.splitRow ⟨Net.get T a, Net.put T a⟩ P t I di row l col n := by
  induction l with
  | nil => intro _ _; rfl
  | cons b r ih => intro col M; rw [Net.splitRow, G.splitRow]; simp only [ih]; rfl

theorem splitRows_eq (T : Agents.Tables) (a : ℕ) (P : Mat) (t : Int) (l : List (ℕ × ℕ)) : ∀ row off n,
    Net.splitRows T a P t l row off n = G.splitRows ⟨Net.get T a, Net.put T a⟩ P t l row off n := by
  induction l with
  | nil => intro _ _ _; rfl
  | cons b r ih => intro row off M; rw [Net.splitRows, G.splitRows]; simp only [ih, splitRow_eq]

theorem correctBeliefs_eq (T : Agents.Tables) (a : ℕ) (P dx : Mat) (t : Int) (d : SMap Belief) : ∀ row n,
    Net.correctBeliefs T a P dx t d row n = G.correctBeliefs ⟨Net.get T a, Net.put T a⟩ P dx t d row n := by
  induction d with
  | nil => intro _ _; rfl
  | cons b r ih => intro col M; rw [Net.correctBeliefs, G.correctBeliefs]; simp only [ih]

end Net

/-! ## One handler with the repair of the a priori covariance -/

/-- The joint observation of one handler (`Hdl.applyObsR`) with the a priori covariance repaired like the posterior. -/
noncomputable def refR (near : Mat → Mat) (pred : ℕ → Inst → Int → Inst × Bool) (h : Hdl) (dH : SMap Mat) (R r : Mat) (t : Int)
    (cfg : Cfg) : Res (Hdl × Bool) := do
  let H ← Hdl.stackH dH
  let x ← Hdl.getDictBel pred h dH.keys t []
  if x.2.isEmpty then .ok (x.1, false)
  else do
    let S0 ← Hdl.stackSigma x.1 x.2 t
    let S ← stabilize S0 (1 / 10^12)
    Hdl.correctJoint near x.1 x.2 H R r (Hdl.fixPsd near S) t cfg

noncomputable def refZ (near : Mat → Mat) (pred : ℕ → Inst → Int → Inst × Bool) (h : Hdl) (dH : SMap Mat) (z R : Mat) (t : Int)
    (cfg : Cfg) : Res (Hdl × Bool) := do
  let H ← Hdl.stackH dH
  let x ← Hdl.getDictBel pred h dH.keys t []
  if x.2.isEmpty then .ok (x.1, false)
  else do
    let mean ← Hdl.stackMean x.2
    let S0 ← Hdl.stackSigma x.1 x.2 t
    let Hm ← H *! mean
    let r ← z -! Hm
    let S ← stabilize S0 (1 / 10^12)
    Hdl.correctJoint near x.1 x.2 H R r (Hdl.fixPsd near S) t cfg

theorem net_commit (hd : Dist T n h) (d : SMap Belief) (hu : ∀ e ∈ d, e.2.fixed = false) (P dx : Mat) (t : Int) :
    RR (Dist T) (do
        let n1 ← Net.applyCorr T a P t d 0 n
        let n2 ← Net.splitRightUpper T a P d t n1
        Net.correctBeliefs T a P dx t d 0 n2) (Hdl.commit h d P dx t) := by
  unfold Hdl.commit
  refine RR.bind (R := Dist T) ?_ fun l1 h1 hR1 => RR.bind (R := Dist T) ?_ fun l2 h2 hR2 => ?_
  · rw [Net.applyCorr_eq T a P t d hu]
    exact G.applyCorr_sim (netSim T a) P t d (fun _ _ => trivial) 0 n h hd
  · unfold Net.splitRightUpper Hdl.splitRightUpper
    dsimp only
    split
    · exact trivial
    · rw [Net.splitRows_eq]
      exact G.splitRows_sim (netSim T a) P t _ (fun _ _ => trivial) 0 0 l1 h1 hR1
  · rw [Net.correctBeliefs_eq]
    exact G.correctBeliefs_sim (netSim T a) P dx t d (fun _ _ => trivial) 0 l2 h2 hR2

theorem net_correctJoint (hd : Dist T n h) (near) (d : SMap Belief) (hu : ∀ e ∈ d, e.2.fixed = false) (H Rm r S : Mat)
    (t : Int) (cfg : Cfg) :
    RR (RA (Dist T)) (Net.correctJoint T a near n d H Rm r S t cfg) (Hdl.correctJoint near h d H Rm r (Hdl.fixPsd near S) t cfg) := by
  unfold Net.correctJoint Hdl.correctJoint
  refine RR.bind_same _ fun res _ => ?_
  split
  · have := net_commit (a := a) hd d hu (Hdl.fixPsd near res.Sapos) res.dx t
    cases hc : Hdl.commit h d (Hdl.fixPsd near res.Sapos) res.dx t with
    | ok h1 =>
      obtain ⟨n3, hn, hd3⟩ := this.ok_right hc
      obtain ⟨n1, e1, hn⟩ := Hdl.bind_eq_ok hn
      obtain ⟨n2, e2, hn⟩ := Hdl.bind_eq_ok hn
      dsimp only
      rw [e1, Res.bind_ok, e2, Res.bind_ok, hn, Res.bind_ok, Res.bind_ok]
      exact ⟨hd3, rfl⟩
    | throws =>
      rw [hc] at this
      dsimp only
      cases e1 : Net.applyCorr T a (Hdl.fixPsd near res.Sapos) t d 0 n with
      | throws => exact trivial
      | ub => rw [e1] at this; exact absurd this (by simp [RR])
      | ok n1 =>
        rw [e1, Res.bind_ok] at this
        rw [Res.bind_ok]
        cases e2 : Net.splitRightUpper T a (Hdl.fixPsd near res.Sapos) d t n1 with
        | throws => exact trivial
        | ub => rw [e2] at this; exact absurd this (by simp [RR])
        | ok n2 =>
          rw [e2, Res.bind_ok] at this
          rw [Res.bind_ok]
          cases e3 : Net.correctBeliefs T a (Hdl.fixPsd near res.Sapos) res.dx t d 0 n2 <;> rw [e3] at this <;>
            simp_all [RR]
    | ub =>
      rw [hc] at this
      dsimp only
      cases e1 : Net.applyCorr T a (Hdl.fixPsd near res.Sapos) t d 0 n with
      | ub => exact trivial
      | throws => rw [e1] at this; exact absurd this (by simp [RR])
      | ok n1 =>
        rw [e1, Res.bind_ok] at this
        rw [Res.bind_ok]
        cases e2 : Net.splitRightUpper T a (Hdl.fixPsd near res.Sapos) d t n1 with
        | ub => exact trivial
        | throws => rw [e2] at this; exact absurd this (by simp [RR])
        | ok n2 =>
          rw [e2, Res.bind_ok] at this
          rw [Res.bind_ok]
          cases e3 : Net.correctBeliefs T a (Hdl.fixPsd near res.Sapos) res.dx t d 0 n2 <;> rw [e3] at this <;>
            simp_all [RR]
  · exact ⟨hd, rfl⟩

theorem net_getDictBel (hd : Dist T n h) (pred) (t : Int) (ids : List ℕ) :
    RR (fun x y => Dist T x.1 y.1 ∧ x.2 = y.2) (Net.getDictBel T a pred n ids t []) (Hdl.getDictBel pred h ids t []) := by
  rw [Net.getDictBel_eq]
  exact G.getDictBel_sim (netSim T a) pred t ids (fun _ _ => trivial) n h [] hd

theorem net_stackSigma (hd : Dist T n h) (d : SMap Belief) (t : Int) : Net.stackSigma T a n d t = Hdl.stackSigma h d t := by
  unfold Net.stackSigma Hdl.stackSigma
  rw [Net.stackRows_eq, G.stackRows_sim (netSim T a) hd t d (fun _ _ => trivial) d (fun _ _ => trivial)]

/-- The participants of the union handler after prediction are not fixed. -/
def AllUnfixed (pred : ℕ → Inst → Int → Inst × Bool) (h : Hdl) (ids : List ℕ) (t : Int) : Prop :=
  ∀ x, Hdl.getDictBel pred h ids t [] = .ok x → ∀ e ∈ x.2, e.2.fixed = false

theorem net_generalR (hd : Dist T n h) (near pred) (dH : SMap Mat) (Rm r : Mat) (t : Int) (cfg : Cfg)
    (hu : AllUnfixed pred h dH.keys t) :
    RR (RA (Dist T)) (Net.generalR T a near pred n dH Rm r t cfg) (refR near pred h dH Rm r t cfg) := by
  unfold Net.generalR refR
  refine RR.bind_same _ fun H _ => ?_
  have hg := net_getDictBel (a := a) hd pred t dH.keys
  cases hx : Hdl.getDictBel pred h dH.keys t [] with
  | throws => rw [hx] at hg
              cases hl : Net.getDictBel T a pred n dH.keys t [] <;> rw [hl] at hg <;> simp_all [RR]
  | ub => rw [hx] at hg
          cases hl : Net.getDictBel T a pred n dH.keys t [] <;> rw [hl] at hg <;> simp_all [RR]
  | ok y =>
    obtain ⟨x, hl, hRx, hxy⟩ := hg.ok_right hx
    rw [hl, Res.bind_ok, Res.bind_ok, hxy]
    split
    · exact ⟨hRx, rfl⟩
    · rw [net_stackSigma hRx]
      refine RR.bind_same _ fun S0 _ => RR.bind_same _ fun S _ => ?_
      exact net_correctJoint hRx near y.2 (hu y hx) H Rm r S t cfg

theorem net_generalZ (hd : Dist T n h) (near pred) (dH : SMap Mat) (z Rm : Mat) (t : Int) (cfg : Cfg)
    (hu : AllUnfixed pred h dH.keys t) :
    RR (RA (Dist T)) (Net.generalZ T a near pred n dH z Rm t cfg) (refZ near pred h dH z Rm t cfg) := by
  unfold Net.generalZ refZ
  refine RR.bind_same _ fun H _ => ?_
  have hg := net_getDictBel (a := a) hd pred t dH.keys
  cases hx : Hdl.getDictBel pred h dH.keys t [] with
  | throws => rw [hx] at hg
              cases hl : Net.getDictBel T a pred n dH.keys t [] <;> rw [hl] at hg <;> simp_all [RR]
  | ub => rw [hx] at hg
          cases hl : Net.getDictBel T a pred n dH.keys t [] <;> rw [hl] at hg <;> simp_all [RR]
  | ok y =>
    obtain ⟨x, hl, hRx, hxy⟩ := hg.ok_right hx
    rw [hl, Res.bind_ok, Res.bind_ok, hxy]
    split
    · exact ⟨hRx, rfl⟩
    · rw [net_stackSigma hRx]
      refine RR.bind_same _ fun m _ => RR.bind_same _ fun S0 _ => RR.bind_same _ fun Hm _ => RR.bind_same _ fun r _ =>
        RR.bind_same _ fun S _ => ?_
      exact net_correctJoint hRx near y.2 (hu y hx) H Rm r S t cfg

end Collab
end Ikf
