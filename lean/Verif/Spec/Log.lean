import Verif.Model.Log

/-!
# What the log contains

Written from the documentation of the API, without registry, pointers or threads: a history of calls determines a
configuration (level and sinks, or nothing before the first use), and the configuration determines the lines.
-/

namespace Ikf.Log

/-- Level and sinks in force. -/
abbrev Conf := Option (ℕ × List Sink)

/-- The configuration a first use brings about: everything to the file (sink 1), warnings and worse to the
console (sink 0). -/
def fresh : ℕ × List Sink := (0, [⟨0, 3⟩, ⟨1, 0⟩])

/-- The configuration after a call. -/
def conf : Conf → Op → Conf
  | c, .logger => some (c.getD fresh)
  | c, .setLevel l => if l ≤ 6 then some (l, (c.getD fresh).2) else c
  | c, .disable => some (6, (c.getD fresh).2)
  | c, .setup ks => if ks = [] then some (c.getD fresh) else some (0, ks)
  | c, .write _ _ => some (c.getD fresh)
  | c, .note _ _ => c

/-- Where a text of severity `sev` goes: to the sinks whose level allows it, if the logger's level does. -/
def dest (c : ℕ × List Sink) (sev : ℕ) : List ℕ :=
  (c.2.filter fun k => decide (c.1 ≤ sev ∧ k.level ≤ sev)).map Sink.id

/-- The lines one call adds, as (sink, severity, text). -/
def adds (c : Conf) : Op → List (ℕ × ℕ × ℕ)
  | .write sev n => (dest (c.getD fresh) sev).map fun k => (k, sev, n)
  | .note sev n => match c with
    | none => []
    | some c => (dest c sev).map fun k => (k, sev, n)
  | _ => []

/-- All lines of a history. -/
def content : Conf → List Op → List (ℕ × ℕ × ℕ)
  | _, [] => []
  | c, op :: ops => adds c op ++ content (conf c op) ops

/-- The configuration after a history. -/
def confs (c : Conf) (ops : List Op) : Conf := ops.foldl conf c

/-- The lines of thread `th` among all lines (the logger's own two lines left out). -/
def linesOf (th : ℕ) (out : List Line) : List (ℕ × ℕ × ℕ) :=
  out.filterMap fun x => match x.msg with
    | .text t n => if t = th then some (x.sink, x.sev, n) else none
    | _ => none

/-- The texts a program writes, in order. -/
def texts (ops : List Op) : List (ℕ × ℕ) :=
  ops.filterMap fun op => match op with
    | .write sev n => some (sev, n)
    | .note sev n => some (sev, n)
    | _ => none

/-- A call that changes neither level nor sinks once there is a logger. -/
def Op.Plain : Op → Prop
  | .setLevel _ => False
  | .disable => False
  | .setup ks => ks = []
  | _ => True

/-- A call that does not replace the sinks. -/
def Op.Keeps : Op → Prop
  | .setup ks => ks = []
  | _ => True

/-- The logger is set up and nobody is inside a call. -/
def Ready (s : St) (p : ℕ) (g : Lg) : Prop :=
  s.reg = some p ∧ s.heap[p]? = some g ∧ ∀ th, s.pc th = .idle

end Ikf.Log
