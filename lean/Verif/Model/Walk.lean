import Verif.Model.Buffer

/-!
# Walking through a history buffer

Model of the functions of `THistoryBuffer` and `TMultiHistoryBuffer` that visit all elements (`HB` = THistoryBuffer.hpp, `MB` =
TMultiHistoryBuffer.hpp). What the caller's operation does is a function on a state of the caller's. Simplification: it does not touch the
buffer.
-/

namespace Ikf
namespace Buf
variable {α σ : Type _}

/-- HB:116-122, MB:145-151 `foreach`. -/
def forEach (op : σ → α → σ) (s : σ) : Buf α → σ
  | [] => s
  | e :: b => forEach op (op s e.2) b

/-- HB:125-131 `foreach_t`, MB:154-160 `foreach_timestamp`: the operation is given the key, an int64. -/
def forEachT (op : σ → Int → σ) (s : σ) : Buf α → σ
  | [] => s
  | e :: b => forEachT op (op s e.1) b

/-- HB:134-140, MB:163-169 `foreach_reverse`. -/
def forEachReverse (op : σ → α → σ) (s : σ) (b : Buf α) : σ := forEach op s b.reverse

/-- HB:98-103, MB:110-116 `accumulate`. -/
def accumulate (op : α → α → α) (init : α) : Buf α → α
  | [] => init
  | e :: b => accumulate op (op init e.2) b

/-- The loop of HB:177-185, HB:194-202 and MB:213-222: the elements printed, in order. -/
def printLoop (len : ℕ) : ℕ → Buf α → Buf α
  | _, [] => []
  | cnt, e :: b => if cnt < len then e :: printLoop len (cnt + 1) b else []

/-- HB:171-186, MB:207-223 `print`. -/
def print (b : Buf α) (N : ℕ) : Buf α := printLoop (if N = 0 then b.length else N) 0 b

/-- HB:188-203 `print_reverse`. -/
def printReverse (b : Buf α) (N : ℕ) : Buf α := printLoop (if N = 0 then b.length else N) 0 b.reverse

/-- HB:163-169, MB:198-205 `operator<<`: the number in the header and the elements. -/
def stream (b : Buf α) : ℕ × Buf α := (b.length, b)

end Buf
end Ikf
