import Verif.Spec.Concurrent
import Mathlib.Tactic

/-!
# The invariant behind C105
-/

namespace Ikf.Conc

open Ikf.Lock (Mutex)

variable {V : Loc → Type} {α : Type}

theorem OneByOne.append {s s1 s2 : Store V} {l1 l2 : List (ℕ × Prog V α × α)} (h1 : OneByOne s l1 s1) (h2 : OneByOne s1 l2 s2) :
    OneByOne s (l1 ++ l2) s2 := by
  induction h1 with
  | nil s => exact h2
  | cons h _ ih => exact .cons h (ih h2)

/-- A call that has left its scope and only has to return. -/
def Thread.tail (x : Thread V α) : List (Prog V α × α) :=
  match x.now with
  | some (p, .ret a) => [(p, a)]
  | _ => []

/-- A thread outside of the scopes: not in a call, before its scope, behind a `try_lock` that failed (only if `tmo`), or behind its scope. -/
def Thread.Out (tmo : Prop) (x : Thread V α) : Prop :=
  x.now = none ∨ (∃ p, x.now = some (p, p) ∧ Locked p) ∨ (∃ p a, x.now = some (p, .unlock .main (.ret a)) ∧ tmo ∧ Timed p) ∨
    (∃ p a, x.now = some (p, .ret a))

/-- The thread inside. -/
def Conf.In (c : Conf V α) (s : Store V) (o d : ℕ) : Prop :=
  ∃ p q r, (c.thr o).now = some (p, q) ∧ Locked p ∧ Inside (d + 1) r q ∧ p.run s = q.run c.store ∧ c.rur = (if r then .held o 0 else .free)

structure Inv (tmo : Prop) (calls : ℕ → List (Prog V α)) (s0 : Store V) (c : Conf V α) (hist : List (ℕ × Prog V α × α)) : Prop where
  todo : ∀ th, ∀ p ∈ (c.thr th).todo, Locked p
  prog : ∀ th, (c.thr th).past.map (·.1) ++ ((c.thr th).now.toList.map (·.1) ++ (c.thr th).todo) = calls th
  mine : ∀ th, callsOf th hist = (c.thr th).past ++ (c.thr th).tail
  seq : ∃ s, OneByOne s0 hist s ∧
    match c.main with
    | .free => c.store = s ∧ c.rur = .free ∧ ∀ th, (c.thr th).Out tmo
    | .held o d => c.In s o d ∧ ∀ th, th ≠ o → (c.thr th).Out tmo

theorem callsOf_append (th : ℕ) (l l' : List (ℕ × Prog V α × α)) : callsOf th (l ++ l') = callsOf th l ++ callsOf th l' := by
  simp [callsOf]

theorem callsOf_one (th x : ℕ) (e : Prog V α × α) : callsOf th [(x, e)] = if x = th then [e] else [] := by
  by_cases h : x = th <;> simp [callsOf, h]

theorem put_same (c : Conf V α) (th : ℕ) (x : Thread V α) : c.put th x th = x := by simp [Conf.put]
theorem put_other (c : Conf V α) {th y : ℕ} (x : Thread V α) (h : y ≠ th) : c.put th x y = c.thr y := by simp [Conf.put, h]

theorem Locked.not_ret {p : Prog V α} (h : Locked p) (a : α) : p ≠ .ret a := by
  rcases h with ⟨b, r, rfl, -⟩ | ⟨b, rfl, -⟩ <;> simp

theorem Inside.not_ret {d : ℕ} {r : Bool} {p : Prog V α} (h : Inside (d + 1) r p) (a : α) : p ≠ .ret a := by
  cases h <;> simp

theorem tail_none {x : Thread V α} (h : x.now = none) : x.tail = [] := by simp [Thread.tail, h]

theorem tail_ne {x : Thread V α} {p q : Prog V α} (h : x.now = some (p, q)) (hq : ∀ a, q ≠ .ret a) : x.tail = [] := by
  unfold Thread.tail
  rw [h]
  cases q <;> simp_all

theorem tail_ret {x : Thread V α} {p : Prog V α} {a : α} (h : x.now = some (p, .ret a)) : x.tail = [(p, a)] := by
  unfold Thread.tail
  rw [h]

/-- A held mutex after one unlock. -/
def dec (o : ℕ) : ℕ → Mutex
  | 0 => .free
  | d + 1 => .held o d

theorem unlock_held {o d th : ℕ} {m : Mutex} (h : Lock.unlock (.held o d) th = .ok m) : o = th ∧ m = dec o d := by
  unfold Lock.unlock at h
  simp only at h
  split at h
  · rename_i ho
    refine ⟨ho, ?_⟩
    cases d <;> simpa [dec, eq_comm] using h
  · simp at h

theorem acquire_ok {m m' : Mutex} {th : ℕ} (h : acquire m th = some m') :
    (m = .free ∧ m' = .held th 0) ∨ ∃ d, m = .held th d ∧ m' = .held th (d + 1) := by
  cases m with
  | free => left; simpa [acquire, eq_comm] using h
  | held o d =>
    right
    unfold acquire at h
    simp only at h
    split at h
    · rename_i ho
      subst ho
      exact ⟨d, rfl, (Option.some.inj h).symm⟩
    · simp at h

/-- Every thread that does not hold the mutex is outside. -/
theorem Inv.out {tmo : Prop} {calls : ℕ → List (Prog V α)} {s0 : Store V} {c : Conf V α} {hist} (h : Inv tmo calls s0 c hist) (th : ℕ)
    (hh : ∀ d, c.main ≠ .held th d) : (c.thr th).Out tmo := by
  obtain ⟨s, -, hm⟩ := h.seq
  cases hc : c.main with
  | free => rw [hc] at hm; exact hm.2.2 th
  | held o d =>
    rw [hc] at hm
    by_cases ho : th = o
    · subst ho; exact absurd hc (hh d)
    · exact hm.2 th ho

/-- The thread of an outside position changes its position only; nobody else, nothing else is touched. -/
theorem Inv.outside {tmo : Prop} {calls : ℕ → List (Prog V α)} {s0 : Store V} {c : Conf V α} {hist} (h : Inv tmo calls s0 c hist) (th : ℕ)
    (hh : ∀ d, c.main ≠ .held th d) (x' : Thread V α) (ho : x'.Out tmo) (ht : ∀ p ∈ x'.todo, Locked p)
    (hp : x'.past.map (·.1) ++ (x'.now.toList.map (·.1) ++ x'.todo) = calls th) (hm : callsOf th hist = x'.past ++ x'.tail) :
    Inv tmo calls s0 { c with thr := c.put th x' } hist := by
  refine ⟨fun y => ?_, fun y => ?_, fun y => ?_, ?_⟩
  · by_cases hy : y = th
    · subst hy; simp only [put_same]; exact ht
    · simp only [put_other _ _ hy]; exact h.todo y
  · by_cases hy : y = th
    · subst hy; simp only [put_same]; exact hp
    · simp only [put_other _ _ hy]; exact h.prog y
  · by_cases hy : y = th
    · subst hy; simp only [put_same]; exact hm
    · simp only [put_other _ _ hy]; exact h.mine y
  · obtain ⟨s, hs, hc⟩ := h.seq
    refine ⟨s, hs, ?_⟩
    cases hmain : c.main with
    | free =>
      rw [hmain] at hc
      refine ⟨hc.1, hc.2.1, fun y => ?_⟩
      by_cases hy : y = th
      · subst hy; simp only [put_same]; exact ho
      · simp only [put_other _ _ hy]; exact hc.2.2 y
    | held o d =>
      rw [hmain] at hc
      have hne : o ≠ th := fun e => hh d (by rw [hmain, e])
      refine ⟨?_, fun y hyo => ?_⟩
      · obtain ⟨p, q, r, h1, h2⟩ := hc.1
        exact ⟨p, q, r, by simp only [put_other _ _ hne]; exact h1, h2⟩
      · by_cases hy : y = th
        · subst hy; simp only [put_same]; exact ho
        · simp only [put_other _ _ hy]; exact hc.2 y hyo

/-- The thread inside moves on, and stays inside or comes in. -/
theorem Inv.inside {tmo : Prop} {calls : ℕ → List (Prog V α)} {s0 s : Store V} {c : Conf V α} {hist} (h : Inv tmo calls s0 c hist) (o d : ℕ)
    (hs : OneByOne s0 hist s) (hothers : ∀ th, th ≠ o → (c.thr th).Out tmo) {p q q' : Prog V α} (hnow : (c.thr o).now = some (p, q))
    (hq : ∀ a, q ≠ .ret a) (hl : Locked p) {r : Bool} (hi : Inside (d + 1) r q') (st : Store V) (hrun : p.run s = q'.run st) :
    Inv tmo calls s0 ⟨st, .held o d, if r then .held o 0 else .free, c.put o ((c.thr o).go p q')⟩ hist := by
  refine ⟨fun y => ?_, fun y => ?_, fun y => ?_, ?_⟩
  · by_cases hy : y = o
    · subst hy; simp only [put_same]; exact h.todo y
    · simp only [put_other _ _ hy]; exact h.todo y
  · by_cases hy : y = o
    · subst hy
      have := h.prog y
      simp only [put_same, Thread.go]
      rw [hnow] at this
      exact this
    · simp only [put_other _ _ hy]; exact h.prog y
  · by_cases hy : y = o
    · subst hy
      simp only [put_same]
      rw [tail_ne (x := (c.thr y).go p q') rfl (fun a => hi.not_ret a), h.mine y, tail_ne hnow hq]
      rfl
    · simp only [put_other _ _ hy]; exact h.mine y
  · refine ⟨s, hs, ⟨p, q', r, by simp only [put_same]; rfl, hl, hi, hrun, rfl⟩, fun y hy => ?_⟩
    simp only [put_other _ _ hy]
    exact hothers y hy

theorem Inv.call {tmo : Prop} {calls : ℕ → List (Prog V α)} {s0 : Store V} {c : Conf V α} {hist} (h : Inv tmo calls s0 c hist) {th : ℕ}
    {p : Prog V α} {ps} (hn : (c.thr th).now = none) (ht : (c.thr th).todo = p :: ps) :
    Inv tmo calls s0 { c with thr := c.put th { c.thr th with now := some (p, p), todo := ps } } hist := by
  have hlp : Locked p := h.todo th p (by rw [ht]; exact List.mem_cons_self)
  refine h.outside th ?_ _ (Or.inr (Or.inl ⟨p, rfl, hlp⟩)) (fun q hq => h.todo th q (by rw [ht]; exact List.mem_cons_of_mem _ hq)) ?_ ?_
  · intro d hd
    obtain ⟨s, -, hm⟩ := h.seq
    rw [hd] at hm
    obtain ⟨p, q, r, h1, -⟩ := hm.1
    rw [hn] at h1
    simp at h1
  · have := h.prog th
    rw [hn, ht] at this
    simpa using this
  · rw [h.mine th, tail_none hn, tail_ne (x := { c.thr th with now := some (p, p), todo := ps }) rfl (fun a => hlp.not_ret a)]

/-- What a thread that holds the mutex is doing. -/
theorem Inv.holder {tmo : Prop} {calls : ℕ → List (Prog V α)} {s0 : Store V} {c : Conf V α} {hist} (h : Inv tmo calls s0 c hist) {o d : ℕ}
    (hm : c.main = .held o d) : ∃ s, OneByOne s0 hist s ∧ c.In s o d ∧ ∀ th, th ≠ o → (c.thr th).Out tmo := by
  obtain ⟨s, hs, h1⟩ := h.seq
  rw [hm] at h1
  exact ⟨s, hs, h1⟩

theorem held_or (c : Conf V α) (th : ℕ) : (∃ d, c.main = .held th d) ∨ ∀ d, c.main ≠ .held th d := by
  by_cases h : ∃ d, c.main = .held th d
  · exact Or.inl h
  · exact Or.inr (fun d hd => h ⟨d, hd⟩)

/-- One step keeps the invariant; at most the call of the stepping thread is added to the history. -/
theorem Inv.step {tmo : Prop} {calls : ℕ → List (Prog V α)} {s0 : Store V} {c c' : Conf V α} {hist} {e : Ev} (h : Inv tmo calls s0 c hist)
    (ht : ∀ th, e = .timeout th → tmo) (hst : Step c e (.ok c')) : ∃ ext, Inv tmo calls s0 c' (hist ++ ext) := by
  cases hst with
  | call th x p ps hx hn htd =>
    subst hx
    exact ⟨[], by rw [List.append_nil]; exact h.call hn htd⟩
  | ret th x p a hx hn =>
    subst hx
    refine ⟨[], ?_⟩
    rw [List.append_nil]
    refine h.outside th ?_ _ (Or.inl rfl) (h.todo th) ?_ ?_
    · intro d hd
      obtain ⟨s, -, ⟨p', q, r, h1, -, h3, -⟩, -⟩ := h.holder hd
      rw [hn] at h1
      cases h1
      exact h3.not_ret a rfl
    · have := h.prog th
      rw [hn] at this
      simpa using this
    · rw [h.mine th, tail_ret hn, tail_none (x := { c.thr th with past := (c.thr th).past ++ [(p, a)], now := none }) rfl]
      simp
  | rd th x p l k hx hn =>
    subst hx
    refine ⟨[], ?_⟩
    rw [List.append_nil]
    rcases held_or c th with ⟨d, hd⟩ | hno
    · obtain ⟨s, hs, ⟨p', q, r, h1, h2, h3, h4, h5⟩, h6⟩ := h.holder hd
      rw [hn] at h1
      cases h1
      cases h3 with
      | rd h3 =>
        have := h.inside th d hs h6 hn (by simp) h2 (h3 (c.store l)) c.store (by rw [h4]; rfl)
        rw [← hd, ← h5] at this
        exact this
    · exfalso
      rcases h.out th hno with h1 | ⟨p', h1, h2⟩ | ⟨p', a, h1, -⟩ | ⟨p', a, h1⟩ <;> rw [hn] at h1
      · simp at h1
      · cases h1; rcases h2 with ⟨b, r, h, -⟩ | ⟨b, h, -⟩ <;> simp at h
      · simp at h1
      · simp at h1
  | wr th x p l f k hx hn =>
    subst hx
    refine ⟨[], ?_⟩
    rw [List.append_nil]
    rcases held_or c th with ⟨d, hd⟩ | hno
    · obtain ⟨s, hs, ⟨p', q, r, h1, h2, h3, h4, h5⟩, h6⟩ := h.holder hd
      rw [hn] at h1
      cases h1
      cases h3 with
      | wr h3 =>
        have := h.inside th d hs h6 hn (by simp) h2 (h3 (c.store l)) (Function.update c.store l (f (c.store l))) (by rw [h4]; rfl)
        rw [← hd, ← h5] at this
        exact this
    · exfalso
      rcases h.out th hno with h1 | ⟨p', h1, h2⟩ | ⟨p', a, h1, -⟩ | ⟨p', a, h1⟩ <;> rw [hn] at h1
      · simp at h1
      · cases h1; rcases h2 with ⟨b, r, h, -⟩ | ⟨b, h, -⟩ <;> simp at h
      · simp at h1
      · simp at h1
  | tryOk th x p k kt m hx hn hm =>
    subst hx
    refine ⟨[], ?_⟩
    rw [List.append_nil]
    rcases acquire_ok hm with ⟨hf, rfl⟩ | ⟨d, hd, rfl⟩
    · obtain ⟨s, hs, hc⟩ := h.seq
      rw [hf] at hc
      rcases hc.2.2 th with h1 | ⟨p', h1, h2⟩ | ⟨p', a, h1, -⟩ | ⟨p', a, h1⟩ <;> rw [hn] at h1
      · simp at h1
      · cases h1
        have hin : Inside 1 false k := by
          rcases h2 with ⟨b, r, h, hb⟩ | ⟨b, h, -⟩
          · cases h; exact hb
          · simp at h
        have := h.inside th 0 hs (fun y _ => hc.2.2 y) hn (by simp) h2 hin c.store (by rw [← hc.1]; rfl)
        simp only [Bool.false_eq_true, if_false] at this
        rw [← hc.2.1] at this
        exact this
      · simp at h1
      · simp at h1
    · obtain ⟨s, hs, ⟨p', q, r, h1, h2, h3, h4, h5⟩, h6⟩ := h.holder hd
      rw [hn] at h1
      cases h1
      cases h3 with
      | tryLock h3 =>
        have := h.inside th (d + 1) hs h6 hn (by simp) h2 h3 c.store (by rw [h4]; rfl)
        rw [← h5] at this
        exact this
  | tryLate th x p k kt hx hn hm =>
    subst hx
    refine ⟨[], ?_⟩
    rw [List.append_nil]
    have hno : ∀ d, c.main ≠ .held th d := by
      intro d hd
      rw [hd] at hm
      simp [acquire] at hm
    rcases h.out th hno with h1 | ⟨p', h1, h2⟩ | ⟨p', a, h1, -⟩ | ⟨p', a, h1⟩ <;> rw [hn] at h1
    · simp at h1
    · cases h1
      rcases h2 with ⟨b, r, hb, hb'⟩ | ⟨b, hb, -⟩
      · cases hb
        refine h.outside th hno _ (Or.inr (Or.inr (Or.inl ⟨_, r, rfl, ht th rfl, ⟨_, _, rfl, hb'⟩⟩))) (h.todo th) ?_ ?_
        · have := h.prog th
          rw [hn] at this
          exact this
        · rw [h.mine th, tail_ne hn (by simp), tail_ne (x := (c.thr th).go _ (.unlock .main (.ret r))) rfl (by simp)]
          rfl
      · simp at hb
    · simp at h1
    · simp at h1
  | lockMain th x p k m hx hn hm =>
    subst hx
    refine ⟨[], ?_⟩
    rw [List.append_nil]
    rcases acquire_ok hm with ⟨hf, rfl⟩ | ⟨d, hd, rfl⟩
    · obtain ⟨s, hs, hc⟩ := h.seq
      rw [hf] at hc
      rcases hc.2.2 th with h1 | ⟨p', h1, h2⟩ | ⟨p', a, h1, -⟩ | ⟨p', a, h1⟩ <;> rw [hn] at h1
      · simp at h1
      · cases h1
        have hin : Inside 1 false k := by
          rcases h2 with ⟨b, r, h, hb⟩ | ⟨b, h, hb⟩
          · simp at h
          · cases h; exact hb
        have := h.inside th 0 hs (fun y _ => hc.2.2 y) hn (by simp) h2 hin c.store (by rw [← hc.1]; rfl)
        simp only [Bool.false_eq_true, if_false] at this
        rw [← hc.2.1] at this
        exact this
      · simp at h1
      · simp at h1
    · obtain ⟨s, hs, ⟨p', q, r, h1, h2, h3, h4, h5⟩, h6⟩ := h.holder hd
      rw [hn] at h1
      cases h1
      cases h3 with
      | lockMain h3 =>
        have := h.inside th (d + 1) hs h6 hn (by simp) h2 h3 c.store (by rw [h4]; rfl)
        rw [← h5] at this
        exact this
  | lockRur th x p k m hx hn hm =>
    subst hx
    refine ⟨[], ?_⟩
    rw [List.append_nil]
    rcases held_or c th with ⟨d, hd⟩ | hno
    · obtain ⟨s, hs, ⟨p', q, r, h1, h2, h3, h4, h5⟩, h6⟩ := h.holder hd
      rw [hn] at h1
      cases h1
      cases h3 with
      | lockRur h3 =>
        have := h.inside th d hs h6 hn (by simp) h2 h3 c.store (by rw [h4]; rfl)
        simp only [Bool.false_eq_true, if_false] at h5
        rw [h5] at hm
        simp only [acquireR, Option.some.injEq] at hm
        simp only [if_true] at this
        rw [← hd, hm] at this
        exact this
    · exfalso
      rcases h.out th hno with h1 | ⟨p', h1, h2⟩ | ⟨p', a, h1, -⟩ | ⟨p', a, h1⟩ <;> rw [hn] at h1
      · simp at h1
      · cases h1; rcases h2 with ⟨b, r, h, -⟩ | ⟨b, h, -⟩ <;> simp at h
      · simp at h1
      · simp at h1
  | unlockRur th x p k m hx hn hm =>
    subst hx
    refine ⟨[], ?_⟩
    rw [List.append_nil]
    rcases held_or c th with ⟨d, hd⟩ | hno
    · obtain ⟨s, hs, ⟨p', q, r, h1, h2, h3, h4, h5⟩, h6⟩ := h.holder hd
      rw [hn] at h1
      cases h1
      cases h3 with
      | unlockRur h3 =>
        have := h.inside th d hs h6 hn (by simp) h2 h3 c.store (by rw [h4]; rfl)
        simp only [if_true] at h5
        rw [h5] at hm
        obtain ⟨-, rfl⟩ := unlock_held hm
        simp only [Bool.false_eq_true, if_false] at this
        rw [← hd] at this
        exact this
    · exfalso
      rcases h.out th hno with h1 | ⟨p', h1, h2⟩ | ⟨p', a, h1, -⟩ | ⟨p', a, h1⟩ <;> rw [hn] at h1
      · simp at h1
      · cases h1; rcases h2 with ⟨b, r, h, -⟩ | ⟨b, h, -⟩ <;> simp at h
      · simp at h1
      · simp at h1
  | unlockMain th x p k m hx hn hm =>
    subst hx
    cases hmain : c.main with
    | free => rw [hmain] at hm; simp [Lock.unlock] at hm
    | held o d =>
      rw [hmain] at hm
      obtain ⟨rfl, hmm⟩ := unlock_held hm
      obtain ⟨s, hs, ⟨p', q, r, h1, h2, h3, h4, h5⟩, h6⟩ := h.holder hmain
      rw [hn] at h1
      cases h1
      cases h3 with
      | unlockMain h3 =>
        cases d with
        | succ d =>
          refine ⟨[], ?_⟩
          rw [List.append_nil]
          simp only [dec] at hmm
          subst hmm
          have := h.inside o d hs h6 hn (by simp) h2 h3 c.store (by rw [h4]; rfl)
          rw [← h5] at this
          exact this
        | zero =>
          simp only [dec] at hmm
          subst hmm
          cases h3 with
          | ret a =>
            have hrun : p.run s = .ok (c.store, a) := h4
            refine ⟨[(o, p, a)], fun y => ?_, fun y => ?_, fun y => ?_, c.store, hs.append (.cons hrun (.nil _)), rfl, ?_, fun y => ?_⟩
            · by_cases hy : y = o
              · subst hy; simp only [put_same]; exact h.todo y
              · simp only [put_other _ _ hy]; exact h.todo y
            · by_cases hy : y = o
              · subst hy
                have := h.prog y
                simp only [put_same, Thread.go]
                rw [hn] at this
                exact this
              · simp only [put_other _ _ hy]; exact h.prog y
            · rw [callsOf_append, callsOf_one, h.mine y]
              by_cases hy : y = o
              · subst hy
                simp only [put_same, if_true]
                rw [tail_ne hn (by simp), tail_ret (x := (c.thr y).go p (.ret a)) rfl]
                simp [Thread.go]
              · simp only [put_other _ _ hy, if_neg (Ne.symm hy), List.append_nil]
            · simpa using h5
            · by_cases hy : y = o
              · subst hy; simp only [put_same]; exact Or.inr (Or.inr (Or.inr ⟨p, a, rfl⟩))
              · simp only [put_other _ _ hy]; exact h6 y hy

theorem Inv.start {tmo : Prop} (s : Store V) (calls : ℕ → List (Prog V α)) (h : ∀ th, ∀ p ∈ calls th, Locked p) :
    Inv tmo calls s (start s calls) [] :=
  ⟨h, fun _ => by simp [Conc.start], fun _ => rfl, s, .nil s, rfl, rfl, fun _ => Or.inl rfl⟩

theorem Inv.run {tmo : Prop} {calls : ℕ → List (Prog V α)} {s0 : Store V} {c c' : Conf V α} {hist} {es : List Ev} {r : Res (Conf V α)}
    (h : Inv tmo calls s0 c hist) (ht : ∀ th, .timeout th ∈ es → tmo) (hr : Run c es r) (e : r = .ok c') :
    ∃ ext, Inv tmo calls s0 c' (hist ++ ext) := by
  induction hr generalizing hist with
  | nil c => cases e; exact ⟨[], by rwa [List.append_nil]⟩
  | cons hs _ ih =>
    obtain ⟨e1, h1⟩ := h.step (fun th he => ht th (by rw [he]; exact List.mem_cons_self)) hs
    obtain ⟨e2, h2⟩ := ih h1 (fun th hm => ht th (List.mem_cons_of_mem _ hm)) e
    exact ⟨e1 ++ e2, by rwa [← List.append_assoc]⟩
  | ub => cases e

/-- Undefined behaviour without a time-out is that of the call itself, made on the members left by the calls before. -/
theorem Inv.step_ub {calls : ℕ → List (Prog V α)} {s0 : Store V} {c : Conf V α} {hist} {e : Ev} (h : Inv False calls s0 c hist)
    (hst : Step c e .ub) : ∃ s th p, OneByOne s0 hist s ∧ p.run s = .ub ∧ (c.thr th).now = some (p, .crash) := by
  have key : ∀ th p q, (c.thr th).now = some (p, q) → (∀ a, q ≠ .ret a) → ¬ Locked q → ∃ d s r, c.main = .held th d ∧ OneByOne s0 hist s ∧ Inside (d + 1) r q ∧
      p.run s = q.run c.store ∧ c.rur = (if r then .held th 0 else .free) := by
    intro th p q hn hq hl
    rcases held_or c th with ⟨d, hd⟩ | hno
    · obtain ⟨s, hs, ⟨p', q', r, h1, h2, h3, h4, h5⟩, h6⟩ := h.holder hd
      rw [hn] at h1
      cases h1
      exact ⟨d, s, r, hd, hs, h3, h4, h5⟩
    · exfalso
      rcases h.out th hno with h1 | ⟨p', h1, h2⟩ | ⟨p', a, h1, hf, -⟩ | ⟨p', a, h1⟩
      · rw [hn] at h1; simp at h1
      · rw [hn] at h1; cases h1; exact hl h2
      · exact hf
      · rw [hn] at h1; cases h1; exact hq a rfl
  have nl : ∀ m (k : Prog V α), ¬ Locked (.unlock m k) := by
    rintro m k (⟨b, r, h, -⟩ | ⟨b, h, -⟩) <;> simp at h
  cases hst with
  | unlockMainUb th x p k hx hn hu =>
    subst hx
    obtain ⟨d, s, r, h1, -⟩ := key th p _ hn (by simp) (nl _ _)
    rw [h1] at hu
    simp [Lock.unlock] at hu
  | unlockRurUb th x p k hx hn hu =>
    subst hx
    obtain ⟨d, s, r, h1, h2, h3, h4, h5⟩ := key th p _ hn (by simp) (nl _ _)
    cases h3
    rw [h5] at hu
    simp [Lock.unlock] at hu
  | crash th x p hx hn =>
    subst hx
    obtain ⟨d, s, r, h1, h2, h3, h4, h5⟩ := key th p _ hn (by simp) (by rintro (⟨b, r, h, -⟩ | ⟨b, h, -⟩) <;> simp at h)
    exact ⟨s, th, p, h2, h4, hn⟩

/-- The calls in the history of a thread are its first ones. -/
theorem Inv.prefix {tmo : Prop} {calls : ℕ → List (Prog V α)} {s0 : Store V} {c : Conf V α} {hist} (h : Inv tmo calls s0 c hist) (th : ℕ) :
    (callsOf th hist).map (·.1) <+: calls th := by
  rw [h.mine th, ← h.prog th, List.map_append]
  apply (List.prefix_append_right_inj _).mpr
  cases hn : (c.thr th).now with
  | none => rw [tail_none hn]; simp
  | some x =>
    obtain ⟨p, q⟩ := x
    by_cases hr : ∃ a, q = .ret a
    · obtain ⟨a, rfl⟩ := hr
      rw [tail_ret hn]; simp
    · rw [tail_ne hn (fun a e => hr ⟨a, e⟩)]; simp

end Ikf.Conc
