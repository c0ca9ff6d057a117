import Verif.Io.Xml
/-
Model of the generic input objects (ipi/utils/inputvalue.py): `Input.__init__` 133-180, `set_default` 182-192, `extend` 216-235,
`write` 249-301, `parse` 303-384, `InputAttribute` 941-1041, `InputValue.write`/`parse` 1133-1163, `InputArray.write`/`parse` 1254-1319
(their text conversion is a `Leaf`). `V` is the type of values held by attributes and value fields.

An object holds values for its attributes, possibly a value of its own (its text), objects for its fields, and the list `extra` of
dynamic fields. Conversions of units (`store`/`fetch`) are outside: `V` is what `self.value` holds. An element called `_text` is not
represented.
-/
namespace Verif.Inp
open Verif.Text Verif.Xml

/-- `write_type` and `read_type` for one data type. -/
structure Leaf (V : Type) where
  wr : V → Str
  rd : Str → Option V

/-- An `InputAttribute` declaration: name, conversion, default (`None`: mandatory). -/
structure Attr (V : Type) where
  name : Str
  leaf : Leaf V
  default : Option V

/-- Contents of an object: attribute values in the order of declaration, own value, fields in the order of declaration, dynamic fields. -/
inductive State (V : Type) where
  | mk (attrs : List V) (val : Option V) (fields : List (State V)) (extra : List (Str × State V))

mutual
/-- An input class: attributes, own value if it is an `InputValue`, fields, dynamic fields. -/
inductive Spec (V : Type) where
  | mk (attribs : List (Attr V)) (leaf : Option (Leaf V)) (fields : Fields V) (dyn : Dyns V)
/-- `instancefields`; the default is what the object holds after `store(default)`. -/
inductive Fields (V : Type) where
  | nil
  | cons (name : Str) (spec : Spec V) (default : Option (State V)) (rest : Fields V)
/-- `dynamic` -/
inductive Dyns (V : Type) where
  | nil
  | cons (name : Str) (spec : Spec V) (rest : Dyns V)
end

variable {V : Type}

/-! ### writing -/

/-- Attributes that differ from their default in their written form (inputvalue.py:270-279; the other parts of the two compared strings
are equal). -/
def writeAttribs : List (Attr V) → List V → List (Str × Str)
  | a :: as, v :: vs =>
    if a.default.map a.leaf.wr = some (a.leaf.wr v) then writeAttribs as vs else (a.name, a.leaf.wr v) :: writeAttribs as vs
  | _, _ => []

/-- Text between the tags: the value, or the line break that `Input.write` puts. -/
def ownText (l : Option (Leaf V)) (v : Option V) : Str :=
  match l, v with
  | some l, some v => l.wr v
  | _, _ => ['\n']

mutual
/-- The tree whose text is `Input.write`. -/
def toNode : Spec V → Str → State V → Node
  | .mk attribs leaf fields dyn, name, .mk attrs val fs extra =>
    .mk name (writeAttribs attribs attrs) (writeFields fields fs ++ (extra.map fun e => writeDyn dyn e.1 e.2).flatten) (ownText leaf val)
/-- Fields whose written form differs from `_defwrite` (inputvalue.py:282-289). -/
def writeFields : Fields V → List (State V) → List Node
  | .cons name spec default rest, st :: sts =>
    (if default.map (fun d => inputWrite [] (toNode spec name d)) = some (inputWrite [] (toNode spec name st)) then [] else [toNode spec name st]) ++
      writeFields rest sts
  | _, _ => []
/-- Dynamic fields are always written (inputvalue.py:291-293). -/
def writeDyn : Dyns V → Str → State V → List Node
  | .cons n spec rest, name, st => if n = name then [toNode spec name st] else writeDyn rest name st
  | .nil, _, _ => []
end

/-! ### parsing -/

/-- All attributes present must be declared and readable (inputvalue.py:335-347). -/
def readAttrs (attribs : List (Attr V)) : List (Str × Str) → Option (List (Str × V))
  | [] => some []
  | (a, s) :: as =>
    match attribs.find? (fun d => d.name = a) with
    | none => none
    | some d =>
      match d.leaf.rd s, readAttrs attribs as with
      | some v, some vs => some ((a, v) :: vs)
      | _, _ => none

/-- Value of each declared attribute: given, else default, else an error (inputvalue.py:324-327, 366-374). -/
def fillAttrs (given : List (Str × V)) : List (Attr V) → Option (List V)
  | [] => some []
  | a :: as =>
    match (match given.find? (fun g => g.1 = a.name) with | some g => some g.2 | none => a.default), fillAttrs given as with
    | some v, some vs => some (v :: vs)
    | _, _ => none

/-- The loop over the children (inputvalue.py:349-364). `pf` and `pd` parse a child as field or dynamic field: `none` if there is none of
that name, `some none` if parsing fails. Fields are collected latest first; a repeated field is parsed again from scratch. -/
def readKids {S : Type} (pf pd : Str → Node → Option (Option S)) : List Node → List (Str × S) → List (Str × S) → Option (List (Str × S) × List (Str × S))
  | [], got, extra => some (got, extra)
  | .mk n as ks t :: rest, got, extra =>
    match pf n (.mk n as ks t) with
    | some (some s) => readKids pf pd rest ((n, s) :: got) extra
    | some none => none
    | none =>
      match pd n (.mk n as ks t) with
      | some (some s) => readKids pf pd rest got (extra ++ [(n, s)])
      | some none => none
      | none => none

/-- Contents of each declared field: given, else default, else an error. -/
def fillFields (given : List (Str × State V)) : Fields V → Option (List (State V))
  | .nil => some []
  | .cons name _ default rest =>
    match (match given.find? (fun g => g.1 = name) with | some g => some g.2 | none => default), fillFields given rest with
    | some v, some vs => some (v :: vs)
    | _, _ => none

/-- The object's own value. -/
def readOwn : Option (Leaf V) → Str → Option (Option V)
  | none, _ => some none
  | some l, s => (l.rd s).map some

mutual
/-- `Input.parse`, `InputValue.parse` -/
def parseSpec : Spec V → Node → Option (State V)
  | .mk attribs leaf fields dyn, .mk _ as ks t =>
    match (readAttrs attribs as).bind (fun g => fillAttrs g attribs),
      readKids (parseField fields) (parseDyn dyn) ks [] [], readOwn leaf t with
    | some attrs, some (got, extra), some val => (fillFields got fields).map fun fs => .mk attrs val fs extra
    | _, _, _ => none
def parseField : Fields V → Str → Node → Option (Option (State V))
  | .nil, _, _ => none
  | .cons name spec _ rest, n, k => if name = n then some (parseSpec spec k) else parseField rest n k
def parseDyn : Dyns V → Str → Node → Option (Option (State V))
  | .nil, _, _ => none
  | .cons name spec rest, n, k => if name = n then some (parseSpec spec k) else parseDyn rest n k
end

end Verif.Inp
