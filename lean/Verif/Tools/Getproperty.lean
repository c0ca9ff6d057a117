import Verif.Run.Readback

/-!
# Taking one property out of a property file

Model of `/repo/tools/py/getproperty.py` (installed as `bin/i-pi-getproperty`).  The name of the
property is taken as it is: names with characters that mean something in a pattern are not modelled.
Lines are without their line ends.
-/

namespace Verif.Getprop

open Verif.Text Verif.Readback

/-- How the script ends: at the end of the file, with a warning about several properties or none, or
with `ValueError` or `IndexError`. -/
inductive Stop where
  | done
  | multiple
  | missing
  | value
  | index
  deriving DecidableEq, Repr

/-- `" ([0-9]*) *--> " + propertyname` at the beginning of the text (L27): what the group is.  Giving
back digits or blanks that were taken never helps, so there is no backtracking. -/
def matchAt (name : Str) : Str → Option Str
  | ' ' :: r =>
      if ("--> ".toList ++ name).isPrefixOf ((r.dropWhile isDigit).dropWhile (· = ' ')) then
        some (r.takeWhile isDigit)
      else none
  | _ => none

/-- `reprop.search` (L41): the first place. -/
def find (name : Str) : Str → Option Str
  | [] => none
  | c :: s =>
      match matchAt name (c :: s) with
      | some d => some d
      | none => find name s

/-- The loop (L33-58); `icol` is -1 as long as nothing was found.  A line that begins with `#` is
searched, the others are rows. -/
def loop (name : Str) (skip : Nat) : Int → Nat → List Str → List Str × Stop
  | _, _, [] => ([], .done)
  | icol, step, l :: ls =>
      if l.head? = some '#' then
        match find name l with
        | none => loop name skip icol step ls
        | some d =>
            if icol ≥ 0 then ([], .multiple)
            else match parseNat d with
              | none => ([], .value)
              | some k => loop name skip ((k : Int) - 1) step ls
      else if icol < 0 then ([], .missing)
      else if step ≥ skip then
        match (splitWs l)[icol.toNat]? with
        | none => ([], .index)
        | some w =>
            let r := loop name skip icol (step + 1) ls
            (w :: r.1, r.2)
      else loop name skip icol (step + 1) ls

/-- `main` (L20-58): the lines printed. -/
def getproperty (name : Str) (skip : Nat) (file : List Str) : List Str × Stop := loop name skip (-1) 0 file

/-- The lines of the header as they are written (`/repo/ipi/engine/outputs.py` L231-261). -/
def headerLines (icol : Nat) : List Item → List Str
  | [] => []
  | i :: is => headText icol i :: headerLines (icol + i.size) is

end Verif.Getprop
