import Mathlib.Algebra.Field.Rat
import Verif.Text.Model
/-
Model of the unit conversion (ipi/utils/units.py): tables 203-304 and 340-358, `UnitPrefixRE` 361-366, `unit_to_internal` 376-419,
`unit_to_user` 422-434.

Factors are exact rationals, products are exact. The optional `ase` units (306-337, only if the package is installed) are left out.
`str.lower` acts on ASCII letters only.
-/
namespace Verif.Units
open Verif.Text

/-- m / 10^e -/
def dec (m e : Nat) : Rat := (m : Rat) / (10 : Rat) ^ e

/-- m * 10^e -/
def sci (m e : Nat) : Rat := (m : Rat) * (10 : Rat) ^ e

/-- `Constants.amu` (units.py:34) -/
def amu : Rat := dec 18228885 4

/-- Entries present in every family. -/
def common : List (Str × Rat) := [("".toList, 1), ("automatic".toList, 1), ("atomic_unit".toList, 1)]

/-- `UnitMap` (units.py:203-304) -/
def unitMap : List (Str × List (Str × Rat)) :=
  [("undefined".toList, common),
   ("energy".toList, common ++ [("electronvolt".toList, dec 36749326 9), ("j/mol".toList, dec 38087989 14), ("cal/mol".toList, dec 15946679 13),
      ("kelvin".toList, dec 31668152 13)]),
   ("temperature".toList, common ++ [("kelvin".toList, dec 31668152 13)]),
   ("time".toList, common ++ [("second".toList, sci 41341373 9)]),
   ("frequency".toList, common ++ [("inversecm".toList, dec 45563353 13), ("hertz*rad".toList, dec 24188843 24), ("hertz".toList, dec 15198298 23),
      ("hz".toList, dec 15198298 23), ("thz".toList, dec 15198298 11)]),
   ("electric-field".toList, common ++ [("v/ang".toList, dec 19446903811441516 18)]),
   ("electric-dipole".toList, common ++ [("eang".toList, dec 18897261 7), ("debye".toList, dec 3934303 7)]),
   ("ms-momentum".toList, common),
   ("length".toList, common ++ [("angstrom".toList, dec 18897261 7), ("meter".toList, sci 18897261 3), ("radian".toList, 1),
      ("degree".toList, dec 17453292519943295 18)]),
   ("action".toList, common ++ [("joule*second".toList, sci 94825216 26)]),
   ("volume".toList, common ++ [("angstrom3".toList, dec 6748334231 9)]),
   ("velocity".toList, common ++ [("m/s".toList, dec 45710289 14)]),
   ("momentum".toList, common),
   ("mass".toList, common ++ [("dalton".toList, amu), ("electronmass".toList, 1)]),
   ("pressure".toList, common ++ [("bar".toList, dec 3398827377 18), ("atmosphere".toList, dec 344386184 17), ("pascal".toList, dec 3398827377 23),
      ("ev/ang3".toList, dec 54456877 10)]),
   ("density".toList, common ++ [("g/cm3".toList, dec 16267263 5)]),
   ("force".toList, common ++ [("newton".toList, 12137805), ("ev/ang".toList, dec 19446904 9)]),
   ("hessian".toList, common ++ [("ev/ang^2".toList, dec 10290858 9)])]

/-- `UnitPrefix` (units.py:340-358) -/
def unitPrefix : List (Str × Rat) :=
  [("".toList, 1), ("yotta".toList, sci 1 24), ("zetta".toList, sci 1 21), ("exa".toList, sci 1 18), ("peta".toList, sci 1 15),
   ("tera".toList, sci 1 12), ("giga".toList, sci 1 9), ("mega".toList, sci 1 6), ("kilo".toList, sci 1 3), ("milli".toList, dec 1 3),
   ("micro".toList, dec 1 6), ("nano".toList, dec 1 9), ("pico".toList, dec 1 12), ("femto".toList, dec 1 15), ("atto".toList, dec 1 18),
   ("zepto".toList, dec 1 21), ("yocto".toList, dec 1 24)]

/-- The alternatives of `UnitPrefixRE`, in order (units.py:361-366): all names but the empty one, which is first in the table and whose leading
`|` is cut, then the empty one after the last `|`. -/
def alternatives : List Str := (unitPrefix.map (·.1)).tail ++ [[]]

/-- First alternative that matches at the start. -/
def firstAlt : List Str → Str → Str
  | [], _ => []
  | a :: as, s => if a.isPrefixOf s then a else firstAlt as s

/-- `UnitPrefixRE.match(unit)`: groups 1 and 2 of ` *(yotta|…|)(.*) *`. Leading blanks are skipped; `.*` takes everything up to a line
break, so the final ` *` matches nothing. The match never fails. -/
def splitUnit (unit : Str) : Str × Str :=
  let s := unit.dropWhile (· = ' ')
  let p := firstAlt alternatives s
  (p, (s.drop p.length).takeWhile (· ≠ '\n'))

inductive Err where
  | indexError
  | typeError
deriving DecidableEq, Repr

/-- Table look-up. -/
def look {α : Type} (t : List (Str × α)) (k : Str) : Option α := (t.find? fun e => e.1 = k).map (·.2)

def lower (s : Str) : Str := s.map Char.toLower

def kNumber : Str := "number".toList

/-- `unit_to_internal(family, unit, number)` -/
def toInternal (family unit : Str) (x : Rat) : Except Err Rat :=
  if family = kNumber then .ok x
  else
    match look unitMap family with
    | none => .error .indexError
    | some units =>
      let pb := if unit = [] then ([], []) else splitUnit unit
      match look unitPrefix pb.1 with
      | none => .error .typeError
      | some g =>
        match look units (lower pb.2) with
        | none => .error .typeError
        | some f => .ok (x * f * g)

/-- `unit_to_user(family, unit, number)` -/
def toUser (family unit : Str) (x : Rat) : Except Err Rat :=
  match toInternal family unit 1 with
  | .ok c => .ok (x / c)
  | .error e => .error e

end Verif.Units
