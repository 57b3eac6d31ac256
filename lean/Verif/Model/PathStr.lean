import Mathlib.Data.List.Basic

/-!
# Strings and paths

Model of the string functions of source/ikf/source/utils/IO.cpp (cited IO). A `std::string` is the list of its characters. Simplification:
strings are shorter than 2^31 characters (IO:66 stores a position in an `int`).
-/

namespace Ikf
namespace PathStr

abbrev Str := List Char

/-- `std::string::find(d, prev)`: the first position from `prev` on at which `d` stands; `none` is `npos`. -/
def find (d s : Str) (prev : ℕ) : Option ℕ :=
  (List.range (s.length + 1)).find? fun p => decide (prev ≤ p) && d.isPrefixOf (s.drop p)

/-- `std::string::rfind(c)`: the last position of the character. -/
def rfind (c : Char) (s : Str) : Option ℕ := ((List.range s.length).reverse).find? fun p => s[p]? == some c

/-- IO:102-107: where the next token ends. -/
def tokPos (d s : Str) (prev : ℕ) : ℕ :=
  match find d s prev with
  | none => s.length
  | some p => if p = 0 ∧ prev ≠ 0 then s.length else p

/-- IO:95-119 `getTokens(tokens, str, delim)`: the loop, `none` when it has not ended after `fuel` rounds. -/
def tokLoop (d s : Str) : ℕ → ℕ → List Str → Option (List Str)
  | 0, _, _ => none
  | fuel + 1, prev, toks =>
    let pos := tokPos d s prev
    let token := (s.drop prev).take (pos - prev)
    let toks' := if token = [] then toks else toks ++ [token]
    let prev' := pos + d.length
    if pos < s.length ∧ prev' < s.length then tokLoop d s fuel prev' toks' else some toks'

/-- IO:95-119 and IO:149-154: `getTokens` returns `r`. -/
def GetTokens (s d : Str) (r : List Str) : Prop := ∃ fuel, tokLoop d s fuel 0 [] = some r

/-- IO:135-147 `getFirstToken`. -/
def getFirstToken (s d : Str) : Str :=
  match find d s 0 with
  | none => s
  | some p => s.take p

/-- IO:61-78 `checkPathString`: the loop. -/
def checkLoop : ℕ → Str → Option Str
  | 0, _ => none
  | fuel + 1, s =>
    match find ['/', '/'] s 0 with
    | none => some s
    | some p => checkLoop fuel (s.take p ++ ['/'] ++ s.drop (p + 2))

/-- IO:61-78: `checkPathString` returns `r`. -/
def CheckPathString (s r : Str) : Prop := ∃ fuel, checkLoop fuel s = some r

/-- IO:175-178 `isAbsolutePath`; the empty string has a zero character there. -/
def isAbsolutePath (s : Str) : Bool := s.head? == some '/'

/-- IO:180-194 `getFileExtension`. -/
def getFileExtension (s : Str) : Str :=
  match rfind '.' s with
  | some i => s.drop (i + 1)
  | none => []

/-- IO:196-210 `getFileDir`. -/
def getFileDir (s : Str) : Str :=
  match rfind '/' s with
  | some i => s.take i
  | none => []

/-- IO:212-235 `getFileName`. A negative `len` is converted to a number larger than any string. -/
def getFileName (s : Str) : Str :=
  match rfind '/' s, rfind '.' s with
  | none, some j => s.take j
  | some i, some j => if j < i + 1 then s.drop (i + 1) else (s.drop (i + 1)).take (j - (i + 1))
  | _, none => []

/-- IO:252-265 `getLastDirName`. -/
def getLastDirName (s : Str) : Str :=
  match rfind '/' s with
  | some i => (s.drop (i + 1)).take s.length
  | none => []

/-- IO:237-250 `getFileParentDirName`. -/
def getFileParentDirName (s : Str) : Str := getLastDirName (getFileDir s)

/-- IO:42-59 `getAbsPathsFromFile`, from the lines of the file. -/
def absPaths (list : Str) (lines : List Str) : List Str :=
  if list = [] then [] else lines.map fun x => if isAbsolutePath x then x else getFileDir list ++ ['/'] ++ x

end PathStr
end Ikf
