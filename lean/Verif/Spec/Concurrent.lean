import Verif.Model.Concurrent

/-!
# What concurrent use of a handler should look like (C105)
-/

namespace Ikf.Conc

variable {V : Loc → Type} {α : Type}

/-- Calls made one after another (by thread, call, result), from `s` to `s'`. -/
inductive OneByOne : Store V → List (ℕ × Prog V α × α) → Store V → Prop
  | nil (s : Store V) : OneByOne s [] s
  | cons {s s1 s' : Store V} {th : ℕ} {p : Prog V α} {a : α} {l : List (ℕ × Prog V α × α)} :
      p.run s = .ok (s1, a) → OneByOne s1 l s' → OneByOne s ((th, p, a) :: l) s'

/-- The calls of one thread in such a history. -/
def callsOf (th : ℕ) (l : List (ℕ × Prog V α × α)) : List (Prog V α × α) := (l.filter (fun e => e.1 == th)).map (·.2)

/-- No thread is inside a call. -/
def Conf.Quiet (c : Conf V α) : Prop := ∀ th, (c.thr th).now = none

/-- The member a thread is about to access, and whether it changes it. -/
def Prog.access : Prog V α → Option (Loc × Bool)
  | .rd l _ => some (l, false)
  | .wr l _ _ => some (l, true)
  | _ => none

/-- A data race: two threads are about to access the same member, and one of them changes it. -/
def Conf.Race (c : Conf V α) : Prop :=
  ∃ a b l wa wb, a ≠ b ∧ (∃ p q, (c.thr a).now = some (p, q) ∧ q.access = some (l, wa)) ∧
    (∃ p q, (c.thr b).now = some (p, q) ∧ q.access = some (l, wb)) ∧ (wa = true ∨ wb = true)

/-- The inside of a function that has locked `m_mtx` `d` times and `m_mtx_histRUR` (`r`): members are accessed only with `m_mtx` locked; scopes
are closed in order; nothing is left locked. -/
inductive Inside : ℕ → Bool → Prog V α → Prop
  | ret (a : α) : Inside 0 false (.ret a)
  | rd {d : ℕ} {r : Bool} {l : Loc} {k : V l → Prog V α} : (∀ v, Inside (d + 1) r (k v)) → Inside (d + 1) r (.rd l k)
  | wr {d : ℕ} {r : Bool} {l : Loc} {f : V l → V l} {k : V l → Prog V α} : (∀ v, Inside (d + 1) r (k v)) → Inside (d + 1) r (.wr l f k)
  | tryLock {d : ℕ} {r : Bool} {k kt : Prog V α} : Inside (d + 2) r k → Inside (d + 1) r (.tryLock k kt)
  | lockMain {d : ℕ} {r : Bool} {k : Prog V α} : Inside (d + 2) r k → Inside (d + 1) r (.lock .main k)
  | unlockMain {d : ℕ} {r : Bool} {k : Prog V α} : Inside d r k → Inside (d + 1) r (.unlock .main k)
  | lockRur {d : ℕ} {k : Prog V α} : Inside (d + 1) true k → Inside (d + 1) false (.lock .rur k)
  | unlockRur {d : ℕ} {k : Prog V α} : Inside (d + 1) false k → Inside (d + 1) true (.unlock .rur k)
  | crash {d : ℕ} {r : Bool} : Inside (d + 1) r .crash

/-- A function whose whole body is inside one scope of `lock_guard_timed` on `m_mtx` and that does nothing but return if the lock is not acquired. -/
def Timed (p : Prog V α) : Prop := ∃ body a, p = .tryLock body (.unlock .main (.ret a)) ∧ Inside 1 false body

/-- A function whose whole body is inside one scope of `std::lock_guard` on `m_mtx`. -/
def Blocking (p : Prog V α) : Prop := ∃ body, p = .lock .main body ∧ Inside 1 false body

/-- Either. -/
def Locked (p : Prog V α) : Prop := Timed p ∨ Blocking p

/-- Measurements fed to a handler one after another (by thread, measurement, answer), from state `h` to `h'`. -/
inductive Fed {W P : Type} (fp : FP) (S : Insts W P) : HState W P → List (ℕ × Meas P × List Status) → HState W P → Prop
  | nil (h : HState W P) : Fed fp S h [] h
  | cons {h h1 h' : HState W P} {th : ℕ} {m : Meas P} {a : List Status} {l : List (ℕ × Meas P × List Status)} :
      Handler.process fp S h m = (h1, a) → Fed fp S h1 l h' → Fed fp S h ((th, m, a) :: l) h'

end Ikf.Conc
