import Verif.Io.TrajUnits

/-!
Model of tools/py/a2b.py: a trajectory is read in one format and written in another.  Frames are comment and numbers; one number stands for
each of data and cell, since all are multiplied with the same factor.  Reading stops at the end of the file.
-/

namespace Verif.A2b

open Verif.Text Verif.Units Verif.TrajUnits

inductive Fail where
  | valueError
  | unbound
  | unit
deriving DecidableEq

/-- `[key.search(comment.strip()) for key in traj_re]`: the first key with a match, its dimension and the units (L56-67). -/
def search : List (Str × Str) → Str → Option (Str × Str × Str)
  | [], _ => none
  | (k, d) :: t, s => match keySearch k s with
    | some u => some (k, d, u)
    | none => search t s

/-- `get_cell_units` (L31-41) -/
def cellUnits (m : Mode) (comment : Str) : Str := (keySearch kCell comment).getD (autoName m)

/-- `get_key_dim_units` (L44-75): without a match `key` has not been assigned when it is returned. -/
def keyDimUnits (m : Mode) (comment : Str) : Except Fail (Str × Str × Str) :=
  match (if comment = [] then none else search trajDict (strip comment)) with
  | some (k, d, u) => if m = .pdb ∧ d ≠ kLength then .error .valueError else .ok (k, d, u)
  | none => .error .unbound

structure Frame where
  comment : Str
  data : Rat
  cell : Rat
deriving DecidableEq

/-- The loop body (L89-110): `read_file` converts with the units of the frame itself, `print_file` with those of the first frame. -/
def convert (im om : Mode) (key dim units cu : Str) (f : Frame) : Except Fail Frame :=
  match processUnits im f.comment kAuto kAuto kAuto with
  | .error _ => .error .valueError
  | .ok (fa, fc) =>
    match printFile om [] key dim units cu with
    | .error _ => .error .valueError
    | .ok p => .ok ⟨p.title, f.data * fa * p.atomsConv, f.cell * fc * p.cellConv⟩

/-- What is written and the exception that ends the loop, if any. -/
def loop (im om : Mode) (key dim units cu : Str) : List Frame → List Frame × Option Fail
  | [] => ([], none)
  | f :: fs => match convert im om key dim units cu f with
    | .error e => ([], some e)
    | .ok w => (w :: (loop im om key dim units cu fs).1, (loop im om key dim units cu fs).2)

/-- `main` for a file with at least one frame. -/
def main (im om : Mode) (f : Frame) (fs : List Frame) : List Frame × Option Fail :=
  match keyDimUnits im f.comment with
  | .error e => ([], some e)
  | .ok (key, dim, units) => loop im om key dim units (cellUnits im f.comment) (f :: fs)

end Verif.A2b
