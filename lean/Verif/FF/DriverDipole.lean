import Mathlib.Data.List.Basic
import Mathlib.Data.Rat.Defs

/-!
The options and the output of the driver for machine learned dipoles: `ipi/pes/driverdipole.py`.
-/

namespace Verif.DrvDipole

/-- A JSON value.  Simplifications: numbers are integers and an array is known by its length, as
the driver looks at neither. -/
inductive J where
  | null
  | bool (b : Bool)
  | num (n : Int)
  | str (s : String)
  | arr (n : Nat)
  | obj (d : List (String × J))

/-- The exceptions of this file; `formatError` is what `'{:s}'.format` does with something that is
not a string. -/
inductive Err where
  | attributeError
  | keyError
  | typeError
  | formatError
  | valueError
deriving DecidableEq

/-- Assigning to a key that a python dictionary has already. -/
def setKey (d : List (String × J)) (k : String) (v : J) : List (String × J) :=
  d.map fun p => if p.1 = k then (k, v) else p

/-- `recursive_copy` (`ipi/pes/driverdipole.py` L35-47): for every key of the source, descend when
both sides have a dictionary there, and otherwise copy when the target does not have the key.
Simplification: dictionaries are lists of pairs in order of insertion and are returned instead of
being changed in place. -/
def recursiveCopy : List (String × J) → List (String × J) → List (String × J)
  | [], target => target
  | (k, .obj v) :: rest, target =>
    match target.lookup k with
    | some (.obj t) => recursiveCopy rest (setKey target k (.obj (recursiveCopy v t)))
    | some _ => recursiveCopy rest target
    | none => recursiveCopy rest (target ++ [(k, .obj v)])
  | (k, v) :: rest, target =>
    match target.lookup k with
    | some _ => recursiveCopy rest target
    | none => recursiveCopy rest (target ++ [(k, v)])

/-- `opts_default` (`ipi/pes/driverdipole.py` L128-139). -/
def optsDefault : List (String × J) :=
  [("dipole", .obj [("send", .bool true), ("file", .null)]),
   ("BEC", .obj [("compute", .bool true), ("send", .bool true), ("file", .null)]),
   ("restart", .bool false)]

/-- `add_default` (`ipi/pes/driverdipole.py` L50-56). -/
def addDefault (dictionary : J) (default : List (String × J)) : Except Err (List (String × J)) :=
  match dictionary with
  | .null => .ok (recursiveCopy default [])
  | .obj d => .ok (recursiveCopy default d)
  | _ => .error .valueError

/-- `x[key]` for a JSON value: a `KeyError` when a dictionary does not have the key, a `TypeError`
for everything that is not a dictionary. -/
def item (x : J) (k : String) : Except Err J :=
  match x with
  | .obj d => match d.lookup k with
    | some v => .ok v
    | none => .error .keyError
  | _ => .error .typeError

/-- The truth of a value in an `if`. -/
def truthy : J → Bool
  | .null => false
  | .bool b => b
  | .num n => n != 0
  | .str s => s != ""
  | .arr n => n != 0
  | .obj d => !d.isEmpty

/-- `"{:s}".format(file)`. -/
def formatS : J → Except Err String
  | .str s => .ok s
  | _ => .error .formatError

/-- The options from the file (`ipi/pes/driverdipole.py` L171-184).  The outer `none` is a missing
third argument, the inner one a file that cannot be opened or is not JSON.  Whatever goes wrong is
caught by a bare `except` and the default values are used. -/
def readOpts : Option (Option J) → List (String × J)
  | none => recursiveCopy optsDefault []
  | some none => recursiveCopy optsDefault []
  | some (some j) =>
    match addDefault j optsDefault with
    | .ok d => d
    | .error _ => recursiveCopy optsDefault []

/-- The report on the options (`ipi/pes/driverdipole.py` L186-202): the lines printed.  The second
block prints the file of the Born charges where that of the dipole is meant (L199). -/
def report (o : List (String × J)) : Except Err (List String) := do
  let bec ← item (.obj o) "BEC"
  let c ← item bec "compute"
  let l0 := ["Computing BECs: " ++ (if truthy c then "yes" else "no")]
  let bf ← item bec "file"
  let l1 ← match bf with
    | .null => .ok []
    | f => do
      let s ← formatS f
      let r ← item (.obj o) "restart"
      .ok (("BECs will be saved to file '" ++ s ++ "'") ::
        (if truthy r then ["'restart' is true: removing old file '" ++ s ++ "'"] else []))
  let dip ← item (.obj o) "dipole"
  let df ← item dip "file"
  let l2 ← match df with
    | .null => .ok []
    | _ => do
      let f ← item bec "file"
      let s ← formatS f
      let r ← item (.obj o) "restart"
      .ok (("dipole will be saved to file '" ++ s ++ "'") ::
        (if truthy r then ["'restart' is true: removing old file '" ++ s ++ "'"] else []))
  .ok (l0 ++ l1 ++ l2)

/-- `check_parameters` (`ipi/pes/driverdipole.py` L150-206).  With fewer than two arguments the
message to exit with is an attribute that the class does not have (L166).  The number of arguments,
the options file and the files of the disk (name to lines) are given; the model file is taken to load.
The third argument is read only if it is there. -/
def check {α : Type} (nargs : Nat) (file : Option J) (disk : String → List α) :
    Except Err (List (String × J) × List String × (String → List α)) :=
  if nargs < 2 then .error .attributeError
  else
    let o := readOpts (if nargs = 2 then none else some file)
    match report o with
    | .error e => .error e
    | .ok lines => .ok (o, lines, disk)

/-- A line that the driver writes. -/
inductive Line (α : Type) where
  | bec (step : Nat) (x : α)
  | dipole (x : α)
  | old (s : String)

/-- Appending to a file of the disk. -/
def append {β : Type} (disk : String → List β) (name : String) (l : β) : String → List β :=
  fun n => if n = name then disk n ++ [l] else disk n

/-- Writing to the file an option names, if it names one.  Simplification: a name that is not a
string is an error. -/
def save {β : Type} (disk : String → List β) (f : J) (l : β) : Except Err (String → List β) :=
  match f with
  | .null => .ok disk
  | .str s => .ok (append disk s l)
  | _ => .error .typeError

/-- What one call returns: the potential, the forces, the virial, the entries of the JSON string, and
the disk afterwards. -/
structure Out (α : Type) where
  pot : ℚ
  force : List ℚ
  vir : List ℚ
  extras : List (String × α)
  disk : String → List (Line α)

/-- `compute_structure` (`ipi/pes/driverdipole.py` L208-271) at step `count`.  The entries of the cell
are `none` when infinite; `dip` and `bec` are what the network returns for the cell with the infinite
entries put to zero.  Simplification: the dipole returned with and without the Born charges is the
same. -/
def compute {α : Type} (o : List (String × J)) (cell : List (Option ℚ)) (pos : List ℚ) (count : Nat)
    (dip bec : α) (disk : String → List (Line α)) : Except Err (Out α) :=
  if (cell.any fun x => x.isNone) && !(cell.all fun x => x == none || x == some 0) then
    .error .valueError
  else do
    let cell' := cell.map fun x => x.getD 0
    let b ← item (.obj o) "BEC"
    let c ← item b "compute"
    let (ex, disk1) ← (if truthy c then do
        let s ← item b "send"
        let f ← item b "file"
        let d ← save disk f (.bec count bec)
        .ok ((if truthy s then [("BEC", bec)] else []), d)
      else .ok ([], disk) : Except Err (List (String × α) × (String → List (Line α))))
    let dp ← item (.obj o) "dipole"
    let f ← item dp "file"
    let disk2 ← save disk1 f (.dipole dip)
    let s ← item dp "send"
    .ok ⟨0, pos.map (fun x => x * 0), cell'.map (fun x => x * 0),
      ex ++ (if truthy s then [("dipole", dip)] else []), disk2⟩

end Verif.DrvDipole
