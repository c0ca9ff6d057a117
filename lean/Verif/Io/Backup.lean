import Verif.Text.Model
/-
Model of `open_backup` (ipi/utils/io/__init__.py:431-470) over a file system that maps path names to files and directories. A call reads
and changes the file system atomically (no other process in between). Links and permissions are not modelled.
-/
namespace Verif.Backup
open Verif.Text

inductive Node where
  | file (contents : Str)
  | dir
deriving DecidableEq

/-- Path names with what they stand for; the first entry counts. -/
abbrev FS := List (Str × Node)

def get : FS → Str → Option Node
  | [], _ => none
  | (k, v) :: fs, n => if k = n then some v else get fs n

def del (fs : FS) (n : Str) : FS := fs.filter (fun e => e.1 ≠ n)

def put (fs : FS) (n : Str) (v : Node) : FS := (n, v) :: del fs n

/-- `os.path.isfile` -/
def isfile (fs : FS) (n : Str) : Bool :=
  match get fs n with
  | some (.file _) => true
  | _ => false

/-- Directory part of a path; `none` if the path is a plain name. -/
def parent (n : Str) : Option Str :=
  match (n.reverse.dropWhile (· ≠ '/')) with
  | [] => none
  | _ :: d => some d.reverse

/-- A name can be created if its directory exists. -/
def creatable (fs : FS) (n : Str) : Bool :=
  match parent n with
  | none => true
  | some d => d = [] || get fs d == some .dir

/-- `os.rename(a, b)` for an existing file `a`; replaces a file `b`, fails on a directory or if the directory of `b` is missing. -/
def rename (fs : FS) (a b : Str) : FS × Bool :=
  match get fs a with
  | none => (fs, false)
  | some v => if !creatable fs b then (fs, false) else if get fs b = some .dir then (fs, false) else (put (del fs a) b v, true)

/-- `open(name, "w")` -/
def openW (fs : FS) (n : Str) : FS × Bool :=
  if get fs n = some .dir then (fs, false) else if !creatable fs n then (fs, false) else (put fs n (.file []), true)

/-- The name of backup `i`: `"#" + filename + "#%i#" % i` -/
def backupName (fn : Str) (i : Nat) : Str := ['#'] ++ fn ++ ['#'] ++ showNat i ++ ['#']

/-- `while os.path.isfile(fn_backup): ...` (452-454), with a bound on the number of turns. -/
def search (fs : FS) (fn : Str) : Nat → Nat → Str → Option Str
  | 0, _, cur => if isfile fs cur then none else some cur
  | fuel + 1, i, cur => if isfile fs cur then search fs fn fuel (i + 1) (backupName fn i) else some cur

/-- `open_backup(filename, "w")`: the file system afterwards, and whether the file was opened. -/
def openBackup (fs : FS) (fn : Str) : FS × Bool :=
  match search fs fn (fs.length + 1) 0 fn with
  | none => (fs, false)
  | some b =>
    if b ≠ fn then
      let r := rename fs fn b
      if r.2 then openW r.1 fn else r
    else openW fs fn

end Verif.Backup
