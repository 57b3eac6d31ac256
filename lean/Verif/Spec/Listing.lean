import Verif.Model.Listing

/-!
# What a listing, lines, words and a removal are

Specification for C124 to C126; it uses only the data of the model (entries, text, tree), none of its functions.
-/

namespace Ikf
namespace Listing
namespace Spec

open PathStr

/-- The kinds of files of POSIX. -/
inductive Kind where
  | fifo
  | char
  | directory
  | block
  | regular
  | link
  | socket
  | unknown
deriving DecidableEq

/-- The kind in a mode word: its bits 12 to 15 (`S_IFMT`), by the numbers Linux uses. -/
def kindOf (mode : ℕ) : Kind :=
  match mode / 4096 % 16 with
  | 1 => .fifo
  | 2 => .char
  | 4 => .directory
  | 6 => .block
  | 8 => .regular
  | 10 => .link
  | 12 => .socket
  | _ => .unknown

/-- The entry is there for the reader: its name does not begin with a dot and its kind can be found out. -/
def Shown (e : Entry) : Prop := (¬ ∃ r, e.name = '.' :: r) ∧ ∃ m, e.mode = some m

/-- The entry is of the kind. -/
def Is (e : Entry) (k : Kind) : Prop := ∃ m, e.mode = some m ∧ kindOf m = k

/-- The characters after the last dot. -/
def HasExtension (ext name : Str) : Prop := '.' ∉ ext ∧ ∃ a, name = a ++ '.' :: ext

/-- The text is the lines, each followed by a newline, save that the last may do without one. -/
def IsLines (text : Str) (L : List Str) : Prop :=
  (∀ l ∈ L, '\n' ∉ l) ∧
  (text = L.flatMap (· ++ ['\n']) ∨ ∃ init last, L = init ++ [last] ∧ last ≠ [] ∧ text = init.flatMap (· ++ ['\n']) ++ last)

/-- White space of the C locale. -/
def White (c : Char) : Prop := c ∈ [' ', '\t', '\n', Char.ofNat 11, Char.ofNat 12, '\r']

/-- A word: not empty and without white space. -/
def IsWord (w : Str) : Prop := w ≠ [] ∧ ∀ c ∈ w, ¬ White c

/-- The text is the words in order, with white space around and at least one such character between any two. -/
inductive IsWords : Str → List Str → Prop where
  | none {b : Str} : (∀ c ∈ b, White c) → IsWords b []
  | last {b w : Str} : (∀ c ∈ b, White c) → IsWord w → IsWords (b ++ w) [w]
  | more {b w r : Str} {c : Char} {L : List Str} : (∀ c ∈ b, White c) → IsWord w → White c → IsWords (c :: r) L →
      IsWords (b ++ w ++ c :: r) (w :: L)

/-- A name the shell takes as it is: not empty, without blanks and special characters, and not an option. -/
def Plain (s : Str) : Prop :=
  s ≠ [] ∧ s.head? ≠ some '-' ∧
    ∀ c ∈ s, c ∉ [' ', '\t', '\n', ';', '&', '|', '<', '>', '(', ')', '$', '`', '\\', '"', '\'', '*', '?', '[', ']', '#', '~', '=', '%', '!', '{', '}']

end Spec
end Listing
end Ikf
