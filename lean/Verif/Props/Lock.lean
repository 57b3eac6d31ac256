import Verif.Model.Lock
import Mathlib.Tactic

/-!
# C41: the timed lock guard

Statement on runs of any number of threads with arbitrarily nested scopes and arbitrary interleaving.
-/

namespace Ikf.Lock

/-- How often thread `th` has locked the mutex. -/
def holds (m : Mutex) (th : ℕ) : ℕ :=
  match m with
  | .free => 0
  | .held o d => if o = th then d + 1 else 0

/-- A scope of this thread was opened without getting the lock. -/
def failedIn (es : List Ev) (th : ℕ) : Prop := Ev.enter th false ∈ es

/-- Number of open scopes of `th` that were opened with / without the lock. -/
def got (s : St) (th : ℕ) : ℕ := (s.open_ th).count true
def missed (s : St) (th : ℕ) : ℕ := (s.open_ th).count false

theorem put_same (s : St) (th : ℕ) (l) : s.put th l th = l := by simp [St.put]
theorem put_other (s : St) {th x : ℕ} (l) (h : x ≠ th) : s.put th l x = s.open_ x := by simp [St.put, h]

theorem unlock_ok {m m' : Mutex} {th : ℕ} (h : unlock m th = .ok m') :
    holds m th = holds m' th + 1 ∧ ∀ x, x ≠ th → holds m' x = holds m x ∧ holds m x = 0 := by
  cases m with
  | free => simp [unlock] at h
  | held o d =>
    unfold unlock at h
    by_cases ho : o = th
    · subst ho
      simp only [if_true, Res.ok.injEq] at h
      subst h
      cases d with
      | zero => simp only [holds]; exact ⟨by simp, fun x hx => by simp [Ne.symm hx]⟩
      | succ d => simp only [holds]; exact ⟨by simp, fun x hx => by simp [Ne.symm hx]⟩
    · simp [ho] at h

theorem unlock_ub {m : Mutex} {th : ℕ} (h : unlock m th = .ub) : holds m th = 0 := by
  cases m with
  | free => rfl
  | held o d =>
    unfold unlock at h
    by_cases ho : o = th
    · simp [ho] at h
    · simp [holds, ho]

theorem unlock_of_holds {m : Mutex} {th : ℕ} (h : holds m th ≠ 0) : ∃ m', unlock m th = .ok m' := by
  cases m with
  | free => simp [holds] at h
  | held o d =>
    by_cases ho : o = th
    · subst ho; exact ⟨_, by simp [unlock]; rfl⟩
    · simp [holds, ho] at h

/-- One step without a time-out keeps: nobody missed the lock, and everybody holds the mutex as often as it has
open scopes. -/
def Clean (s : St) : Prop := ∀ th, missed s th = 0 ∧ holds s.m th = got s th

/-- The number of unlocks is never smaller than needed: deficit of a thread. -/
def Owes (s : St) (th : ℕ) : Prop := holds s.m th < (s.open_ th).length

theorem clean_step {s s' : St} {e : Ev} (h : Step s e (.ok s')) (hc : Clean s) (he : ∀ th, e ≠ .enter th false) : Clean s' := by
  cases h with
  | lockFree th hm =>
    intro x
    obtain ⟨h1, h2⟩ := hc x
    rw [hm] at h2
    by_cases hx : x = th
    · subst hx
      simp only [missed, got, put_same, holds] at *
      exact ⟨by simpa using h1, by simp [← h2]⟩
    · simp only [missed, got, put_other _ _ hx, holds] at *
      exact ⟨h1, by rw [← h2]; simp [Ne.symm hx]⟩
  | lockOwn th d hm =>
    intro x
    obtain ⟨h1, h2⟩ := hc x
    rw [hm] at h2
    by_cases hx : x = th
    · subst hx
      simp only [missed, got, put_same, holds] at *
      exact ⟨by simpa using h1, by simp [← h2]⟩
    · simp only [missed, got, put_other _ _ hx, holds] at *
      exact ⟨h1, by rw [← h2]; simp [Ne.symm hx]⟩
  | timeout th o d hm ho => exact absurd rfl (he th)
  | leaveOk th b l m hl hu =>
    obtain ⟨u1, u2⟩ := unlock_ok hu
    intro x
    obtain ⟨h1, h2⟩ := hc x
    by_cases hx : x = th
    · subst hx
      simp only [missed, got, put_same] at *
      rw [hl] at h1 h2
      cases b with
      | false => simp at h1
      | true => simp at h1 h2; exact ⟨by simpa using h1, by show holds m x = _; omega⟩
    · simp only [missed, got, put_other _ _ hx] at *
      exact ⟨h1, by show holds m x = _; rw [(u2 x hx).1, h2]⟩

theorem clean_length {s : St} (hc : Clean s) (th : ℕ) : holds s.m th = (s.open_ th).length := by
  obtain ⟨h1, h2⟩ := hc th
  have : ∀ l : List Bool, l.count false + l.count true = l.length := by
    intro l
    induction l with
    | nil => rfl
    | cons a l ih => cases a <;> simp <;> omega
  have := this (s.open_ th)
  simp only [missed, got] at h1 h2
  omega

/-- C41 (1): as long as no `try_lock` times out, no destructor releases a mutex its thread does not own (no
undefined behaviour), a thread holds the mutex exactly as often as it has open scopes, and no two threads are
inside guarded scopes at the same time. For every schedule. -/
theorem c41_no_timeout_partial {es : List Ev} {r : Res St} (h : Run start es r) (hno : ∀ th, ¬ failedIn es th) :
    ∃ s, r = .ok s ∧ (∀ th, holds s.m th = (s.open_ th).length) ∧ (∀ a b, s.open_ a ≠ [] → s.open_ b ≠ [] → a = b) := by
  have key : ∀ (s0 : St), Clean s0 → Run s0 es r → (∀ th, ¬ failedIn es th) → ∃ s, r = .ok s ∧ Clean s := by
    clear h hno
    intro s0 hc h
    induction h with
    | nil s => exact fun _ => ⟨s, rfl, hc⟩
    | cons hst _ ih =>
      rename_i e es r
      intro hno
      refine ih (clean_step hst hc ?_) (fun th ht => hno th (List.mem_cons_of_mem _ ht))
      rintro th rfl
      exact hno th (List.mem_cons_self ..)
    | ub hst =>
      rename_i s e es
      intro _
      exfalso
      cases hst with
      | leaveUb th b l hl hu =>
        have h1 := unlock_ub hu
        obtain ⟨h2, h3⟩ := hc th
        simp only [missed, got, hl] at h2 h3
        cases b <;> simp at h2 h3 <;> omega
  obtain ⟨s, hs, hc⟩ := key start (fun th => ⟨rfl, rfl⟩) h hno
  have hlen : ∀ th, holds s.m th = (s.open_ th).length := clean_length hc
  refine ⟨s, hs, hlen, ?_⟩
  intro a b ha hb
  have ha' : holds s.m a ≠ 0 := by rw [hlen]; simpa using ha
  have hb' : holds s.m b ≠ 0 := by rw [hlen]; simpa using hb
  cases hm : s.m with
  | free => simp [hm, holds] at ha'
  | held o d =>
    rw [hm] at ha' hb'
    simp only [holds] at ha' hb'
    split at ha' <;> simp_all

/-- A deficit never goes away without undefined behaviour. -/
theorem owes_step {s s' : St} {e : Ev} (h : Step s e (.ok s')) (th : ℕ) (ho : Owes s th) : Owes s' th := by
  unfold Owes at *
  cases h with
  | lockFree x hm =>
    rw [hm] at ho
    by_cases hx : th = x
    · subst hx; simp only [put_same, holds, List.length_cons] at *; simpa using ho
    · simp only [put_other _ _ hx, holds] at *; simpa [Ne.symm hx] using ho
  | lockOwn x d hm =>
    rw [hm] at ho
    by_cases hx : th = x
    · subst hx; simp only [put_same, holds, List.length_cons] at *; simpa using ho
    · simp only [put_other _ _ hx, holds] at *; simpa [Ne.symm hx] using ho
  | timeout x o d hm hox =>
    by_cases hx : th = x
    · subst hx; simp only [put_same, List.length_cons]; omega
    · simpa only [put_other _ _ hx] using ho
  | leaveOk x b l m hl hu =>
    obtain ⟨u1, u2⟩ := unlock_ok hu
    by_cases hx : th = x
    · subst hx; simp only [put_same] at *; rw [hl] at ho; simp at ho; omega
    · simp only [put_other _ _ hx]; rw [(u2 th hx).1]; exact ho

/-- C41 is false: once a `try_lock` of a thread has timed out, that thread cannot leave all its scopes without a
destructor that unlocks a mutex the thread does not own. For every continuation of every schedule: either the
thread still is inside a scope, or undefined behaviour has happened. -/
theorem c41_timeout_fails {es : List Ev} {r : Res St} (h : Run start es r) (th : ℕ) (hf : failedIn es th) :
    r = .ub ∨ ∃ s, r = .ok s ∧ s.open_ th ≠ [] := by
  have weak : ∀ {s s' : St} {e : Ev}, Step s e (.ok s') → (∀ x, holds s.m x ≤ (s.open_ x).length) →
      ∀ x, holds s'.m x ≤ (s'.open_ x).length := by
    intro s s' e hst hw x
    by_cases hlt : Owes s x
    · exact (owes_step hst x hlt).le
    have heq : holds s.m x = (s.open_ x).length := le_antisymm (hw x) (not_lt.mp hlt)
    cases hst with
    | lockFree y hm =>
      rw [hm] at heq
      by_cases hx : x = y
      · subst hx; simp only [put_same, holds, List.length_cons] at *; simp [← heq]
      · simp only [put_other _ _ hx, holds] at *; simp [Ne.symm hx]
    | lockOwn y d hm =>
      rw [hm] at heq
      by_cases hx : x = y
      · subst hx; simp only [put_same, holds, List.length_cons] at *; simp [← heq]
      · simp only [put_other _ _ hx, holds] at *; simp [Ne.symm hx]
    | timeout y o d hm hox =>
      by_cases hx : x = y
      · subst hx; simp only [put_same, List.length_cons]; omega
      · simp only [put_other _ _ hx]; omega
    | leaveOk y b l m hl hu =>
      obtain ⟨u1, u2⟩ := unlock_ok hu
      by_cases hx : x = y
      · subst hx; simp only [put_same] at *; rw [hl] at heq; simp at heq; omega
      · simp only [put_other _ _ hx]; rw [(u2 x hx).1]; exact hw x
  have key : ∀ (s0 : St) (es : List Ev) (r : Res St), Run s0 es r → (∀ x, holds s0.m x ≤ (s0.open_ x).length) →
      (Owes s0 th ∨ failedIn es th) → r = .ub ∨ ∃ s, r = .ok s ∧ Owes s th := by
    intro s0 es r h
    induction h with
    | nil s =>
      rintro - (ho | hf)
      · exact Or.inr ⟨s, rfl, ho⟩
      · simp [failedIn] at hf
    | cons hst _ ih =>
      rename_i s s' e es r
      intro hw hor
      refine ih (weak hst hw) ?_
      rcases hor with ho | hf
      · exact Or.inl (owes_step hst th ho)
      · simp only [failedIn, List.mem_cons] at hf
        rcases hf with rfl | hf
        · left
          cases hst with
          | timeout _ o d hm hox =>
            unfold Owes
            have := hw th
            simp only [put_same, List.length_cons]; omega
        · exact Or.inr hf
    | ub hst => exact fun _ _ => Or.inl rfl
  rcases key start es r h (fun x => by simp [start, holds]) (Or.inr hf) with h | ⟨s, hs, ho⟩
  · exact Or.inl h
  · refine Or.inr ⟨s, hs, ?_⟩
    intro he
    simp [Owes, he] at ho

/-- C41, exactly: a schedule after which every thread has left its scopes is free of undefined behaviour iff no
`try_lock` timed out. -/
theorem c41_safe_iff_no_timeout {es : List Ev} {r : Res St} (h : Run start es r) (hdone : ∀ s, r = .ok s → ∀ th, s.open_ th = []) :
    r ≠ .ub ↔ ∀ th, ¬ failedIn es th := by
  constructor
  · intro hr th hf
    rcases c41_timeout_fails h th hf with h1 | ⟨s, hs, hne⟩
    · exact hr h1
    · exact hne (hdone s hs th)
  · intro hno hr
    obtain ⟨s, hs, -⟩ := c41_no_timeout_partial h hno
    rw [hr] at hs; simp at hs

/-- The thread of an event. -/
def Ev.thread : Ev → ℕ
  | .enter th _ => th
  | .leave th => th

/-- C41, single-threaded use: then no `try_lock` can time out, so C41 holds without further assumptions. -/
theorem c41_single_thread {es : List Ev} {r : Res St} (h : Run start es r) (th : ℕ) (hth : ∀ e ∈ es, e.thread = th) :
    ∃ s, r = .ok s ∧ ∀ x, holds s.m x = (s.open_ x).length := by
  have key : ∀ (s0 : St) (es : List Ev) (r : Res St), Run s0 es r → Clean s0 → (∀ o d, s0.m = .held o d → o = th) →
      (∀ e ∈ es, e.thread = th) → ∃ s, r = .ok s ∧ Clean s := by
    intro s0 es r h
    induction h with
    | nil s => exact fun hc _ _ => ⟨s, rfl, hc⟩
    | @cons s s' e es r hst _ ih =>
      intro hc hm hall
      have he := hall e (List.mem_cons_self ..)
      have hne : ∀ x, e ≠ .enter x false := by
        rintro x rfl
        cases hst with
        | timeout y o d h1 h2 => exact h2 ((hm o d h1).trans he.symm)
      refine ih (clean_step hst hc hne) ?_ (fun e he => hall e (List.mem_cons_of_mem _ he))
      cases hst with
      | lockFree y _ => intro o d h; cases h; exact he
      | lockOwn y d _ => intro o d h; cases h; exact he
      | timeout y o d h1 h2 => exact hm
      | leaveOk y b l m hl hu =>
        intro o d h
        simp only at h
        subst h
        cases hsm : s.m with
        | free => rw [hsm] at hu; simp [unlock] at hu
        | held o' d' =>
          have := hm o' d' hsm
          rw [hsm] at hu
          unfold unlock at hu
          simp only at hu
          split at hu
          · cases d' <;> simp_all
          · simp at hu
    | @ub s e es hst =>
      intro hc hm hall
      exfalso
      cases hst with
      | leaveUb y b l hl hu =>
        have h1 := unlock_ub hu
        obtain ⟨h2, h3⟩ := hc y
        simp only [missed, got, hl] at h2 h3
        cases b <;> simp at h2 h3 <;> omega
  obtain ⟨s, hs, hc⟩ := key start es r h (fun th => ⟨rfl, rfl⟩) (by intro o d h; cases h) hth
  exact ⟨s, hs, clean_length hc⟩

/-- Two threads, nested scopes, no time-out. -/
example : ∃ s, Run start [.enter 1 true, .enter 1 true, .leave 1, .leave 1, .enter 2 true, .leave 2] (.ok s) ∧ ∀ th, s.open_ th = [] := by
  refine ⟨⟨.free, _⟩, .cons (.lockFree _ _ rfl) (.cons (.lockOwn _ _ _ rfl) (.cons (.leaveOk _ _ true [true] (.held 1 0) rfl rfl)
    (.cons (.leaveOk _ _ true [] .free rfl rfl) (.cons (.lockFree _ _ rfl) (.cons (.leaveOk _ _ true [] .free rfl rfl) (.nil _)))))), ?_⟩
  intro th
  simp only [St.put, start]
  split_ifs <;> rfl

/-- Thread 2 times out while thread 1 holds the mutex: its destructor is undefined behaviour. -/
example : Run start [.enter 1 true, .enter 2 false, .leave 2] .ub :=
  .cons (.lockFree _ _ rfl) (.cons (.timeout _ 2 1 0 rfl (by decide)) (.ub (.leaveUb _ _ false [] rfl rfl)))

end Ikf.Lock
