import Verif.Io.Pdb
import Verif.Phys.Units
/-
Model of the units written into and read from trajectories: `print_file` (ipi/utils/io/__init__.py:209-281), `auto_units` and `process_units`
(ipi/utils/io/io_units.py:24-72, 75-127), the quantities of `Trajectories.traj_dict` (ipi/engine/properties.py:2914-3150).

The mode `ase` is left out, and so are the quantities without a dimension (`extras`, `extras_component_raw`, `extras_bias`), which are not
written by `print_file`.
-/
namespace Verif.TrajUnits
open Verif.Text Verif.Units

def kAuto : Str := "automatic".toList
def kAtomic : Str := "atomic_unit".toList
def kAngstrom : Str := "angstrom".toList
def kUndefined : Str := "undefined".toList
def kLength : Str := "length".toList
def kPositions : Str := "positions".toList
def kForce : Str := "force".toList
def kVelocity : Str := "velocity".toList
def kMomentum : Str := "momentum".toList
def kEnergy : Str := "energy".toList
def kCell : Str := "cell".toList

/-- Keys and dimensions of `traj_dict`, in order. -/
def trajDict : List (Str × Str) :=
  [(kPositions, kLength), ("velocities".toList, kVelocity), ("momenta".toList, kMomentum), ("becx".toList, kNumber), ("becy".toList, kNumber),
   ("becz".toList, kNumber), ("forces".toList, kForce), ("forces_spring".toList, kForce), ("Eforces".toList, kForce), ("forces_sc".toList, kForce),
   ("x_centroid".toList, kLength), ("v_centroid".toList, kVelocity), ("x_centroid_even".toList, kLength), ("v_centroid_even".toList, kVelocity),
   ("x_centroid_odd".toList, kLength), ("v_centroid_odd".toList, kVelocity), ("p_centroid".toList, kMomentum), ("f_centroid".toList, kForce),
   ("kinetic_cv".toList, kEnergy), ("kinetic_od".toList, kEnergy), ("r_gyration".toList, kLength), ("forces_component".toList, kForce),
   ("forces_component_raw".toList, kForce), ("isotope_zetatd".toList, kUndefined), ("isotope_zetasc".toList, kUndefined)]

inductive Mode where
  | pdb
  | other
deriving DecidableEq

/-! ### writing -/

/-- `"%s{%s}"` -/
def tag (key units : Str) : Str := key ++ '{' :: (units ++ ['}'])

/-- What `automatic` stands for. -/
def autoName (m : Mode) : Str := match m with
  | .pdb => kAngstrom
  | .other => kAtomic

def resolve (m : Mode) (u : Str) : Str := if u = kAuto then autoName m else u

structure Printed where
  title : Str
  atomsConv : Rat
  cellConv : Rat
deriving DecidableEq

inductive Err where
  | valueError
  | unit
deriving DecidableEq

/-- `print_file`: title and conversion factors. -/
def printFile (m : Mode) (title key dim units cellUnits : Str) : Except Err Printed :=
  if m = .pdb ∧ dim ≠ kLength then .error .valueError
  else
    let u := resolve m units
    let cu := resolve m cellUnits
    let key := if m = .pdb ∧ key = [] then kPositions else key
    match toUser kLength cu 1, toUser dim u 1 with
    | .ok cc, .ok ac => .ok ⟨title ++ (tag key u ++ ' ' :: ' ' :: tag kCell cu), ac, cc⟩
    | _, _ => .error .unit

/-! ### reading -/

/-- `[A-Za-z_]` -/
def wordChar (c : Char) : Bool := (65 ≤ c.toNat && c.toNat ≤ 90) || (97 ≤ c.toNat && c.toNat ≤ 122) || c = '_'

/-- `\{([A-Za-z_]*)\}` at the start. -/
def braceAt : Str → Option Str
  | '{' :: s => match s.dropWhile wordChar with
    | '}' :: _ => some (s.takeWhile wordChar)
    | _ => none
  | _ => none

/-- `key\{([A-Za-z_]*)\}` at the start. -/
def keyAt (key s : Str) : Option Str := if key.isPrefixOf s then braceAt (s.drop key.length) else none

/-- `re.search` -/
def keySearch (key : Str) : Str → Option Str
  | [] => keyAt key []
  | c :: s => match keyAt key (c :: s) with
    | some u => some u
    | none => keySearch key s

/-- The first key of the table with a match: its dimension and the units. -/
def trajSearch : List (Str × Str) → Str → Option (Str × Str)
  | [], _ => none
  | (k, d) :: t, s => match keySearch k s with
    | some u => some (d, u)
    | none => trajSearch t s

/-- `auto_units`; requests are `kAuto` or explicit. -/
def autoUnits (m : Mode) (comment dim units cellUnits : Str) : Except Err (Str × Str × Str) :=
  let found := trajSearch trajDict (strip comment)
  let ad := match found with
    | some f => f.1
    | none => if m = .pdb then kLength else kUndefined
  let au := match found with
    | some f => f.2
    | none => autoName m
  let ac := match keySearch kCell comment with
    | some u => u
    | none => autoName m
  if dim ≠ kAuto ∧ dim ≠ ad ∧ found.isSome then .error .valueError
  else if units ≠ kAuto ∧ units ≠ au ∧ found.isSome then .error .valueError
  else if cellUnits ≠ kAuto ∧ cellUnits ≠ ac ∧ found.isSome then .error .valueError
  else .ok (if dim = kAuto then ad else dim, if units = kAuto then au else units, if cellUnits = kAuto then ac else cellUnits)

/-- `process_units`: the factors for data and cell. -/
def processUnits (m : Mode) (comment dim units cellUnits : Str) : Except Err (Rat × Rat) :=
  match autoUnits m comment dim units cellUnits with
  | .error e => .error e
  | .ok (d, u, c) =>
    match toInternal kLength c 1, toInternal d u 1 with
    | .ok cc, .ok ac => .ok (ac, cc)
    | _, _ => .error .unit

end Verif.TrajUnits
