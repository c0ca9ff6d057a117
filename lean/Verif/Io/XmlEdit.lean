import Verif.Text.Model

/-!
# Editing an input file

Model of `xml_edit` (`/repo/ipi/utils/io/inputs/io_xml.py` L249-280).
-/

namespace Verif.XmlEdit

open Verif.Text

/-- An `xml_node` (L31-49) seen from the `fields` of its parent: a text (the field `_text`), or
a tag with its attributes and fields.  A tag that the python code holds in several places as the
same object is represented once for each place, so that changing one of them later does not
change the others, unlike in python. -/
inductive Tree where
  | text (s : Str)
  | tag (name : Str) (attrs : List (Str × Str)) (kids : List Tree)

/-- The argument `mode`. -/
inductive Mode | add | remove | replace | other
  deriving DecidableEq, Repr

/-- The exceptions. -/
inductive Err | indexError | valueError
  deriving DecidableEq, Repr

mutual

/-- The body of the loop for one field (L257-278): what stands in its place afterwards, and the
number of edits.  An empty `path` fails at `path[0]`. -/
def editKid (mode : Mode) (full : Bool) (new : Tree) :
    List Str → Tree → Except Err (Option Tree × Nat)
  | _, .text s => .ok (some (.text s), 0)
  | [], .tag _ _ _ => .error .indexError
  | p :: rest, .tag n as ks =>
    if n = p then
      if rest.length = 0 then
        match mode with
        | .add => .ok (some (.tag n as (ks ++ [new])), 1)
        | .remove => .ok (none, 1)
        | .replace => .ok (some new, 1)
        | .other => .error .valueError
      else
        match editKids mode full new rest ks with
        | .error e => .error e
        | .ok r => .ok (some (.tag n as r.1), r.2)
    else if !full then
      match editKids mode full new (p :: rest) ks with
      | .error e => .error e
      | .ok r => .ok (some (.tag n as r.1), r.2)
    else .ok (some (.tag n as ks), 0)

/-- `xml_edit` (L249-280): the fields of `root` afterwards, and the number of edits.  The code
goes through the fields backwards, which makes no difference to the result. -/
def editKids (mode : Mode) (full : Bool) (new : Tree) :
    List Str → List Tree → Except Err (List Tree × Nat)
  | _, [] => .ok ([], 0)
  | path, t :: ts =>
    match editKid mode full new path t with
    | .error e => .error e
    | .ok a =>
      match editKids mode full new path ts with
      | .error e => .error e
      | .ok b => .ok (a.1.toList ++ b.1, a.2 + b.2)

end

end Verif.XmlEdit
