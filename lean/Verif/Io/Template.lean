import Mathlib.Data.List.Sort

/-!
# Templates for systems

Model of `InputSysTemplate.fetch` (`/repo/ipi/inputs/system.py` L62-104) up to the text that is parsed as a system.  The labels and the strings of an instance
are given as lists of strings; how they are read from the text of the input is modelled in `Verif.Io.Values`.
-/

namespace Verif.Template

abbrev Str := List Char

/-- `str.replace(label, value)` of python for a label that is not empty: the occurrences are found from left to right and do not overlap; `k` characters of
an occurrence are still to be skipped. -/
def go (l v : Str) : ℕ → Str → Str
  | _, [] => []
  | k + 1, _ :: cs => go l v k cs
  | 0, c :: cs => if l.isPrefixOf (c :: cs) then v ++ go l v (l.length - 1) cs else c :: go l v 0 cs

def replace (l v s : Str) : Str := go l v 0 s

/-- Comparison of strings in python. -/
def lexLe : Str → Str → Bool
  | [], _ => true
  | _ :: _, [] => false
  | a :: as, b :: bs => if a = b then lexLe as bs else decide (a.toNat < b.toNat)

/-- `sorted(zip(labels, ins), reverse=True)` (L91).  Simplified: for equal labels python compares the strings to be inserted. -/
def sorted (ps : List (Str × Str)) : List (Str × Str) := ps.insertionSort fun a b => lexLe b.1 a.1

/-- The text of one system (L86-93); `none` is the `ValueError` for lists of different lengths. -/
def instance_ (template : Str) (labels ins : List Str) : Option Str :=
  if labels.length ≠ ins.length then none
  else some ((sorted (labels.zip ins)).foldl (fun s p => replace p.1 p.2 s) template)

/-- The texts of all systems (L83-102). -/
def systems (template : Str) (labels : List Str) : List (List Str) → Option (List Str)
  | [] => some []
  | i :: is => (instance_ template labels i).bind fun s => (systems template labels is).map (s :: ·)

end Verif.Template
