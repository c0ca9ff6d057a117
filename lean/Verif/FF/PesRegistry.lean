import Mathlib.Data.List.Basic
import Mathlib.Data.List.Sort
import Mathlib.Data.String.Basic

/-!
The registry of the python potentials: `ipi/pes/__init__.py`.

The files of the package are scanned without being run, each one that names its driver and its
class enters a table, and `load_pes` turns the name given by the user into a class.
-/

namespace Verif.PesReg

/-- A node of the syntax tree of a file, as far as `ast.walk` and the `isinstance` tests of
`scan_pes_file` (`ipi/pes/__init__.py` L28-43) tell nodes apart.  An assignment carries its
targets (`none` for a target that is not a plain name: an attribute, a tuple, …) and the value of
`ast.literal_eval` when that is a string (`none` when it is another literal or not a literal).
Simplification: the expressions below an assignment are left out, as they cannot hold another
assignment statement; `block` is every other node with its children (a function, a class, an
`if`, an expression, …). -/
inductive Node where
  | assign (targets : List (Option String)) (value : Option String)
  | block (kids : List Node)

mutual
/-- The number of nodes of a tree, used only to see that the walk ends. -/
def Node.size : Node → Nat
  | .assign _ _ => 1
  | .block kids => 1 + Node.sizes kids

/-- The number of nodes of a list of trees. -/
def Node.sizes : List Node → Nat
  | [] => 0
  | n :: ns => Node.size n + Node.sizes ns
end

theorem Node.sizes_append (a b : List Node) :
    Node.sizes (a ++ b) = Node.sizes a + Node.sizes b := by
  induction a with
  | nil => simp [Node.sizes]
  | cons x xs ih => simp [Node.sizes, ih]; omega

/-- `ast.walk` (used at `ipi/pes/__init__.py` L29): a queue of nodes; the first one is taken off
and its children are put at the end.  Only the assignments met are kept, in order. -/
def walk : List Node → List (List (Option String) × Option String)
  | [] => []
  | .assign t v :: rest => (t, v) :: walk rest
  | .block kids :: rest => walk (rest ++ kids)
termination_by q => Node.sizes q
decreasing_by
  all_goals simp only [Node.sizes, Node.size, Node.sizes_append]; omega

/-- One assignment as `scan_pes_file` treats it, target after target
(`ipi/pes/__init__.py` L31-44); the state is `(driver_class, driver_name)`. -/
def see (s : Option String × Option String) (a : List (Option String) × Option String) :
    Option String × Option String :=
  a.1.foldl (fun s t =>
    match t, a.2 with
    | some x, some v =>
      if x = "__DRIVER_CLASS__" then (some v, s.2)
      else if x = "__DRIVER_NAME__" then (s.1, some v)
      else s
    | _, _ => s) s

/-- What a file of the package can be when it is scanned (`ipi/pes/__init__.py` L21-27). -/
inductive File where
  | unreadable
  | bad
  | tree (body : List Node)

/-- The exceptions of this file. -/
inductive Err where
  | valueError
  | syntaxError
  | attributeError
  | unboundLocal
  | importError
deriving DecidableEq

/-- `scan_pes_file` (`ipi/pes/__init__.py` L14-45).  An `OSError` is turned into a `ValueError`,
the `SyntaxError` of `ast.parse` is not caught. -/
def scan : File → Except Err (Option String × Option String)
  | .unreadable => .error .valueError
  | .bad => .error .syntaxError
  | .tree body => .ok ((walk [.block body]).foldl see (none, none))

/-- Assigning to a key of a python dictionary: the position of a key that is there already is
kept, a new key goes to the end. -/
def dictSet (d : List (String × String)) (k v : String) : List (String × String) :=
  match d with
  | [] => [(k, v)]
  | (k', v') :: rest => if k' = k then (k, v) :: rest else (k', v') :: dictSet rest k v

/-- The body of the loop over the modules of the package (`ipi/pes/__init__.py` L115-136): a file
called `tools.py` is passed over before it is opened; then the file is scanned and enters the table
when both strings are there and not empty.  Simplification: modules that are not plain `.py` files
(L117) are left out of the list given to the model. -/
def register (d : List (String × String)) (m : String × File) :
    Except Err (List (String × String)) :=
  if m.1 = "tools" then .ok d
  else match scan m.2 with
    | .error e => .error e
    | .ok (some c, some n) => if c ≠ "" ∧ n ≠ "" then .ok (dictSet d n m.1) else .ok d
    | .ok _ => .ok d

/-- The whole loop (`ipi/pes/__init__.py` L109-136) over the modules in the order in which
`pkgutil.iter_modules` lists them. -/
def registerAll (d : List (String × String)) :
    List (String × File) → Except Err (List (String × String))
  | [] => .ok d
  | m :: ms =>
    match register d m with
    | .error e => .error e
    | .ok d' => registerAll d' ms

/-- `dict(sorted(__drivers__.items()))` (`ipi/pes/__init__.py` L139).  Simplification: the pairs are
put in order by an insertion sort on the names, which are all different. -/
def sorted (d : List (String × String)) : List (String × String) :=
  d.insertionSort (fun a b => a.1 ≤ b.1)

/-- `__drivers__` once the package has been imported (`ipi/pes/__init__.py` L109-140). -/
def drivers (ms : List (String × File)) : Except Err (List (String × String)) :=
  match registerAll [] ms with
  | .error e => .error e
  | .ok d => .ok (sorted d)

/-- A module once it has been run: its names and what they are bound to; a class is given by its
own text, a string by its value.  Only the two kinds of value looked at are told apart. -/
inductive Obj where
  | str (s : String)
  | cls (s : String)
deriving DecidableEq

/-- The end of `load_pes`, common to both branches (`ipi/pes/__init__.py` L98-105): the class is looked
up in the module under the name that `__DRIVER_CLASS__` gives.  `missing` is the exception that is
seen when there is no `__DRIVER_CLASS__`. -/
def classOf (m : String → Option Obj) (missing : Err) : Except Err Obj :=
  match m "__DRIVER_CLASS__" with
  | some (.str c) =>
    match m c with
    | some o => .ok o
    | none => .error .attributeError
  | some (.cls _) => .error .attributeError
  | none => .error missing

/-- `load_pes` (`ipi/pes/__init__.py` L48-105).  `custom` is the module obtained by running the file
`pes_path`, `package` runs a module of the package; `none` stands for a module that cannot be
imported.  Simplifications: the class that is returned is named by its text; anything bound to the
name of the class is returned as it is; a `__DRIVER_CLASS__` that is not a string is left out.

`module_name` is bound only in the second branch (L91), and is used to build the message of L101, so
that a custom module without `__DRIVER_CLASS__` ends in an `UnboundLocalError`. -/
def load (table : List (String × String)) (package : String → Option (String → Option Obj))
    (custom : Option (String → Option Obj)) (mode : String) : Except Err Obj :=
  if mode = "custom" then
    match custom with
    | none => .error .importError
    | some m => classOf m .unboundLocal
  else match table.lookup mode with
    | none => .error .valueError
    | some name =>
      match package name with
      | none => .error .importError
      | some m => classOf m .attributeError

end Verif.PesReg
