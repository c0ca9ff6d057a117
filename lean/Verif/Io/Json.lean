import Verif.Io.Xml
/-
Model of the JSON input format (ipi/utils/io/inputs/io_json.py): `_process_json_node` 54-87, `json_to_xmlnode` 90-141,
`xmlnode_to_json` 144-185.

`json.dump`/`json.load` themselves are library code: a JSON document is the tree of Python objects. Scalars are represented by their
`str()`. `repr` stands for `str()` of a list or dictionary. Python dictionaries are association lists in insertion order.
-/
namespace Verif.Json
open Verif.Text Verif.Xml

/-- Python objects obtained from JSON. -/
inductive J where
  | prim (s : Str)
  | list (l : List J)
  | dict (d : List (Str × J))

def kAttributes : Str := "attributes".toList
def kValue : Str := "value".toList
def kSimulation : Str := "simulation".toList
def kRoot : Str := "root".toList

/-- `data[k]` -/
def get (d : List (Str × J)) (k : Str) : Option J := (d.find? (fun e => e.1 = k)).map (·.2)

/-- `data[k] = v` -/
def set : List (Str × J) → Str → J → List (Str × J)
  | [], k, v => [(k, v)]
  | e :: d, k, v => if e.1 = k then (k, v) :: d else e :: set d k v

/-- One child in `xmlnode_to_json` (io_json.py:171-180). -/
def addKid (d : List (Str × J)) (n : Str) (j : J) : List (Str × J) :=
  match get d n with
  | some (.list l) => set d n (.list (l ++ [j]))
  | some x => set d n (.list [x, j])
  | none => set d n j

/-- The text in `xmlnode_to_json` (io_json.py:162-169); `none` is the `TypeError` of adding a string to something else. -/
def addText (d : List (Str × J)) (t : Str) : Option (List (Str × J)) :=
  if strip t = [] then some d
  else
    match get d kValue with
    | some (.prim s) => some (set d kValue (.prim (s ++ strip t)))
    | some _ => none
    | none => some (set d kValue (.prim (strip t)))

/-- The end of `xmlnode_to_json` (io_json.py:182-185). -/
def finish (d : List (Str × J)) : J :=
  match d with
  | [(k, v)] => if k = kValue then v else .dict d
  | _ => .dict d

mutual
/-- `xmlnode_to_json` on a node built by the XML parser (children, then text). -/
def toJson : Node → Option J
  | .mk _ as ks t =>
    (addKids ks (if as = [] then [] else [(kAttributes, .dict (as.map fun a => (a.1, .prim a.2)))])).bind fun d => (addText d t).map finish
def addKids : List Node → List (Str × J) → Option (List (Str × J))
  | [], d => some d
  | .mk n as ks t :: rest, d => (toJson (.mk n as ks t)).bind fun j => addKids rest (addKid d n j)
end

/-- `str(v)` -/
def str (repr : J → Str) : J → Str
  | .prim s => s
  | x => repr x

/-- `attribs` of `json_to_xmlnode` (io_json.py:119-122); `none` is the `AttributeError` if the entry is not a dictionary. -/
def fromAttrs (repr : J → Str) (d : List (Str × J)) : Option (List (Str × Str)) :=
  match get d kAttributes with
  | none => some []
  | some (.dict as) => some (as.map fun a => (a.1, str repr a.2))
  | some _ => none

/-- The text of `json_to_xmlnode` (io_json.py:125-128). -/
def fromText (repr : J → Str) (d : List (Str × J)) : Str :=
  match get d kValue with
  | none => []
  | some v => str repr v

mutual
/-- `json_to_xmlnode` -/
def fromJson (repr : J → Str) (name : Str) : J → Option Node
  | .prim s => some (.mk name [] [] s)
  | .list l => some (.mk name [] [] (repr (.list l)))
  | .dict d =>
    match fromAttrs repr d, fromItems repr d with
    | some as, some ks => some (.mk name as ks (fromText repr d))
    | _, _ => none
/-- The children (io_json.py:131-139). -/
def fromItems (repr : J → Str) : List (Str × J) → Option (List Node)
  | [] => some []
  | (k, v) :: rest =>
    if k = kAttributes ∨ k = kValue then fromItems repr rest
    else
      match fromValue repr k v, fromItems repr rest with
      | some a, some b => some (a ++ b)
      | _, _ => none
def fromValue (repr : J → Str) (k : Str) : J → Option (List Node)
  | .list l => fromList repr k l
  | .prim s => some [.mk k [] [] s]
  | .dict d =>
    match fromAttrs repr d, fromItems repr d with
    | some as, some ks => some [.mk k as ks (fromText repr d)]
    | _, _ => none
def fromList (repr : J → Str) (k : Str) : List J → Option (List Node)
  | [] => some []
  | j :: l =>
    match fromJson repr k j, fromList repr k l with
    | some a, some b => some (a :: b)
    | _, _ => none
end

/-- `json_to_xmlnode` of the document followed by `_process_json_node`; the result is the `simulation` node handed on. -/
def jsonDoc (repr : J → Str) (j : J) : Option Node :=
  match fromJson repr kRoot j with
  | none => none
  | some (.mk _ as ks t) =>
    match as, ks, t with
    | [], [.mk n as' ks' t'], [] => if n = kSimulation then some (.mk n as' ks' t') else some (.mk kSimulation [] [.mk n as' ks' t'] [])
    | as, ks, t => some (.mk kSimulation as ks t)

/-- `xmlnode_to_json` of the parser's root, whose single child is the document. -/
def docJson (k : Node) : Option J :=
  match k with
  | .mk n as ks t => (toJson (.mk n as ks t)).map fun j => finish (addKid [] n j)

end Verif.Json
