import Verif.Io.Values
/-
Model of the parsing of property keys (ipi/engine/properties.py): `getkey` 23-40, `getall` 43-87.
-/
namespace Verif.Keys
open Verif.Text Verif.Values

/-- Python slice bounds: negative counts from the end, then clipped. -/
def clip (n : Nat) (i : Int) : Nat := if i < 0 then ((n : Int) + i).toNat else min n i.toNat

/-- `s.find(c, start)`; -1 if absent. -/
def pyFind (s : Str) (c : Char) (start : Int) : Int :=
  match (s.drop (clip s.length start)).findIdx? (fun x => x = c) with
  | some i => ((clip s.length start + i : Nat) : Int)
  | none => -1

/-- `s[a:b]` -/
def slice (s : Str) (a b : Int) : Str := (s.take (clip s.length b)).drop (clip s.length a)

def getkey (p : Str) : Str :=
  let pa := pyFind p '(' 0
  let pa := if pa < 0 then (p.length : Int) else pa
  let pu := pyFind p '{' 0
  let pu := if pu < 0 then (p.length : Int) else pu
  strip (slice p 0 (min pa pu))

/-- `unstart` and `unit` (properties.py:61-67); `none` is the `ValueError`. -/
def getUnit (p : Str) : Option (Int × Str) :=
  if '}' ∈ p then
    let unstart := pyFind p '{' 0
    let unstop := pyFind p '}' unstart
    if unstop = -1 then none else some (unstart, slice p (unstart + 1) unstop)
  else some ((p.length : Int), [])

/-- The loop over the arguments (properties.py:77-82): `kw` and the remaining arguments. -/
def splitArgs : List Str → List Str → List (Str × Str) → List Str × List (Str × Str)
  | [], left, kw => (left, kw)
  | a :: as, left, kw =>
    match partition '=' a with
    | (k, some v) => splitArgs as (left.filter fun x => x ≠ a) (insert kw (strip k) (strip v))
    | (_, none) => splitArgs as left kw

/-- `argstart`, positional and keyword arguments (properties.py:68-82). -/
def getArgs (p : Str) : Option (Int × List Str × List (Str × Str)) :=
  if '(' ∈ p then
    let argstart := pyFind p '(' 0
    let argstop := pyFind p ')' argstart
    if argstop = -1 then none
    else
      (readList '(' ')' ';' listStrip (slice p argstart (argstop + 1))).map fun l => (argstart, splitArgs l l [])
  else some ((p.length : Int), [], [])

def getall (p : Str) : Option (Str × Str × List Str × List (Str × Str)) :=
  match getUnit p, getArgs p with
  | some (unstart, unit), some (argstart, args, kw) => some (strip (slice p 0 (min unstart argstart)), unit, args, kw)
  | _, _ => none

end Verif.Keys
