import Verif.Model.PathStr

/-!
# Directories and files

Model of `createDirectory…` and `openFile` of source/ikf/source/utils/IO.cpp (cited IO) over a tree of directories and files.

The operating system (POSIX `mkdir`, `open`, `opendir`) is part of the model: a place is the list of names from the root; a path is resolved
from the root or the working directory, empty names and `.` do not count. Simplifications: no `..`, no links, nobody else changes the tree
in between; permissions do not change (`Env`).
-/

namespace Ikf
namespace FileSys

open PathStr

/-- A place: the names from the root. -/
abbrev Loc := List Str

inductive Node where
  | dir
  | file
deriving DecidableEq

/-- The tree. -/
abbrev FS := Loc → Option Node

/-- What does not change: the working directory, where the process may make directories, what it may read and what it may write. -/
structure Env where
  cwd : Loc
  mkdirOk : Loc → Bool
  readOk : Loc → Bool
  writeOk : Loc → Bool

/-- The names in a path as the operating system reads it. -/
def pieces : Str → List Str
  | [] => [[]]
  | c :: r =>
    if c = '/' then [] :: pieces r
    else match pieces r with
      | p :: L => (c :: p) :: L
      | [] => [[c]]

/-- Names that lead somewhere. -/
def names (s : Str) : Loc := (pieces s).filter fun p => p ≠ [] ∧ p ≠ ['.']

/-- The place a path means; the empty path means none. -/
def resolve (e : Env) (s : Str) : Option Loc :=
  if s = [] then none else some ((if isAbsolutePath s then [] else e.cwd) ++ names s)

/-- Paths ending in a slash or `/.` mean directories only. -/
def wantsDir (s : Str) : Bool := (pieces s).getLast? == some [] || (pieces s).getLast? == some ['.']

/-- What is at a path. -/
def lookup (e : Env) (fs : FS) (s : Str) : Option (Loc × Node) :=
  match resolve e s with
  | none => none
  | some l =>
    match fs l with
    | none => none
    | some .file => if wantsDir s then none else some (l, .file)
    | some .dir => some (l, .dir)

/-- IO:156-160 `fileExists`: `std::ifstream` opens whatever can be read, directories too. -/
def fileExists (e : Env) (fs : FS) (s : Str) : Bool :=
  match lookup e fs s with
  | some x => e.readOk x.1
  | none => false

/-- IO:162-173 `dirExist`. -/
def dirExist (e : Env) (fs : FS) (s : Str) : Bool :=
  match lookup e fs s with
  | some (l, .dir) => e.readOk l
  | _ => false

/-- A new node. -/
def add (fs : FS) (l : Loc) (n : Node) : FS := fun k => if k = l then some n else fs k

/-- IO:267-285 `createDirectory`: `mkdir` fails where something is, or where there is no directory to put it in. -/
def createDirectory (e : Env) (fs : FS) (s : Str) : FS × Bool :=
  match resolve e s with
  | none => (fs, false)
  | some l =>
    if fs l = none ∧ fs l.dropLast = some .dir ∧ e.mkdirOk l = true then (add fs l .dir, true) else (fs, false)

/-- IO:303-324: the loop of `createDirectoryRecursive`; `path` is the string built so far. -/
def mkLoop (e : Env) : List Str → Str → FS → FS × Bool
  | [], _, fs => (fs, true)
  | node :: r, path, fs =>
    if node ≠ [] then
      let p := path ++ node
      if fileExists e fs p then mkLoop e r (p ++ ['/']) fs
      else
        let x := createDirectory e fs p
        if x.2 then mkLoop e r (p ++ ['/']) x.1 else (x.1, false)
    else mkLoop e r path fs

/-- IO:287-325 `createDirectoryRecursive`, with the tokens `getTokens` returns (IO:289). -/
def createDirectoryRecursive (e : Env) (fs : FS) (toks : List Str) (s : Str) : FS × Bool :=
  if toks.length < 1 then (fs, false) else mkLoop e toks (if isAbsolutePath s then ['/'] else []) fs

/-- IO:468-482 `createDirectoryFull`. -/
def createDirectoryFull (e : Env) (fs : FS) (toks : List Str) (s : Str) : FS × Bool :=
  if dirExist e fs s then (fs, true)
  else
    let x := createDirectoryRecursive e fs toks s
    (x.1, dirExist e x.1 s)

/-- IO:458 `open` for writing: an existing file, or a new one in an existing directory. -/
def openOut (e : Env) (fs : FS) (s : Str) : FS × Bool :=
  match resolve e s with
  | none => (fs, false)
  | some l =>
    if wantsDir s then (fs, false)
    else match fs l with
      | some .dir => (fs, false)
      | some .file => (fs, e.writeOk l)
      | none => if fs l.dropLast = some .dir ∧ e.writeOk l = true then (add fs l .file, true) else (fs, false)

/-- IO:434-466 `openFile`; `toks` are the tokens of the directory (IO:448, IO:289). -/
def openFile (e : Env) (fs : FS) (toks : List Str) (s : Str) : FS × Bool :=
  if fileExists e fs s then openOut e fs s
  else if getFileDir s = [] then (fs, false)
  else if dirExist e fs (getFileDir s) then openOut e fs s
  else
    let x := createDirectoryRecursive e fs toks (getFileDir s)
    if dirExist e x.1 (getFileDir s) then openOut e x.1 s else (x.1, false)

end FileSys
end Ikf
