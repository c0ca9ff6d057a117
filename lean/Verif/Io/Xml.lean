import Verif.Text.Model
/-
Model of the XML layer of the inputs (ipi/utils/io/inputs/io_xml.py): `xml_node` 33-74, `xml_handler` 77-167, `xml_parse_string` 170-182,
`xml_write` 200-246, and of the layout used by `Input.write` (ipi/utils/inputvalue.py:249-301).

The SAX parser (expat) is library code; `lex` and the tag checks of `hstep` model what it does with the part of XML the writers produce:
tags, attributes in single or double quotes, text. Comments, processing instructions, CDATA sections, entities and carriage returns are
left out: `lex` rejects them.
-/
namespace Verif.Xml
open Verif.Text

/-- `xml_node` as the parser builds it: the fields are the children in order followed by `("_text", text)`. -/
inductive Node where
  | mk (name : Str) (attrs : List (Str × Str)) (kids : List Node) (text : Str)

/-- What the SAX parser reports. -/
inductive Event where
  | start (name : Str) (attrs : List (Str × Str))
  | chars (s : Str)
  | stop (name : Str)
deriving DecidableEq

/-! ### the writers -/

/-- ` a='v'` for each attribute (io_xml.py:224-225, inputvalue.py:271-279). -/
def writeAttrs : List (Str × Str) → Str
  | [] => []
  | (a, v) :: as => ' ' :: (a ++ ['=', '\''] ++ v ++ ['\''] ++ writeAttrs as)

/-- `<name a='v' …>` -/
def openTag (n : Str) (as : List (Str × Str)) : Str := '<' :: (n ++ writeAttrs as ++ ['>'])

/-- `</name>` -/
def closeTag (n : Str) : Str := '<' :: '/' :: (n ++ ['>'])

mutual
/-- `xml_write` of a named node (io_xml.py:221-246). The text is the last field of a parsed node, so it comes after the children. -/
def xmlWrite (indent : Str) : Node → Str
  | .mk n as ks t =>
    indent ++ openTag n as ++ xmlWriteKids (' ' :: ' ' :: indent) ks ++ strip t ++
      (if strip t = [] then '\n' :: indent else []) ++ closeTag n
def xmlWriteKids (indent : Str) : List Node → Str
  | [] => []
  | k :: ks => '\n' :: (xmlWrite indent k ++ xmlWriteKids indent ks)
end

/-- `xml_write` of the root returned by the parser (name `""`), with its single child. -/
def xmlWriteDoc (k : Node) : Str := '\n' :: xmlWrite [' ', ' '] k

mutual
/-- Layout of `Input.write`: text first, then the fields, each on its own line (inputvalue.py:280-301). -/
def inputWrite (indent : Str) : Node → Str
  | .mk n as ks t =>
    indent ++ openTag n as ++ t ++ inputWriteKids (' ' :: ' ' :: ' ' :: indent) ks ++
      (if '\n' ∈ t then indent else []) ++ closeTag n ++ ['\n']
def inputWriteKids (indent : Str) : List Node → Str
  | [] => []
  | k :: ks => inputWrite indent k ++ inputWriteKids indent ks
end

/-! ### the SAX parser -/

def isNameStart (c : Char) : Bool := (65 ≤ c.toNat && c.toNat ≤ 90) || (97 ≤ c.toNat && c.toNat ≤ 122) || c = '_' || c = ':'
def isNameChar (c : Char) : Bool := isNameStart c || isDigit c || c = '-' || c = '.'
def isXmlWs (c : Char) : Bool := c = ' ' || c = '\n' || c = '\t'

/-- `]]>` is not allowed in text. -/
def hasCdataEnd : Str → Bool
  | ']' :: ']' :: '>' :: _ => true
  | _ :: s => hasCdataEnd s
  | [] => false

/-- Where the parser is. -/
inductive Mode where
  | text (buf : Str)
  | lt
  | closeStart
  | close (n : Str)
  | closeWs (n : Str)
  | name (n : Str)
  | gap (n : Str) (as : List (Str × Str))
  | aname (n : Str) (as : List (Str × Str)) (a : Str)
  | aeq (n : Str) (as : List (Str × Str)) (a : Str)
  | aquote (n : Str) (as : List (Str × Str)) (a : Str)
  | aval (n : Str) (as : List (Str × Str)) (a : Str) (q : Char) (v : Str)
  | aend (n : Str) (as : List (Str × Str))
  | slash (n : Str) (as : List (Str × Str))
deriving DecidableEq

/-- Text read so far is reported. -/
def flush (buf : Str) : Option (List Event) := if buf = [] then some [] else if hasCdataEnd buf then none else some [.chars buf]

/-- One character; `none` is a `SAXParseException`. -/
def lstep : Mode → Char → Option (Mode × List Event)
  | .text buf, c =>
    if c = '<' then (flush buf).map fun e => (.lt, e)
    else if c = '&' ∨ c = '\r' then none
    else some (.text (buf ++ [c]), [])
  | .lt, c => if c = '/' then some (.closeStart, []) else if isNameStart c then some (.name [c], []) else none
  | .closeStart, c => if isNameStart c then some (.close [c], []) else none
  | .close n, c =>
    if isNameChar c then some (.close (n ++ [c]), [])
    else if isXmlWs c then some (.closeWs n, [])
    else if c = '>' then some (.text [], [.stop n])
    else none
  | .closeWs n, c =>
    if isXmlWs c then some (.closeWs n, [])
    else if c = '>' then some (.text [], [.stop n])
    else none
  | .name n, c =>
    if isNameChar c then some (.name (n ++ [c]), [])
    else if isXmlWs c then some (.gap n [], [])
    else if c = '>' then some (.text [], [.start n []])
    else if c = '/' then some (.slash n [], [])
    else none
  | .gap n as, c =>
    if isXmlWs c then some (.gap n as, [])
    else if isNameStart c then some (.aname n as [c], [])
    else if c = '>' then some (.text [], [.start n as])
    else if c = '/' then some (.slash n as, [])
    else none
  | .aname n as a, c =>
    if isNameChar c then some (.aname n as (a ++ [c]), [])
    else if isXmlWs c then some (.aeq n as a, [])
    else if c = '=' then some (.aquote n as a, [])
    else none
  | .aeq n as a, c =>
    if isXmlWs c then some (.aeq n as a, [])
    else if c = '=' then some (.aquote n as a, [])
    else none
  | .aquote n as a, c =>
    if isXmlWs c then some (.aquote n as a, [])
    else if c = '\'' ∨ c = '"' then some (.aval n as a c [], [])
    else none
  | .aval n as a q v, c =>
    if c = q then (if a ∈ as.map (·.1) then none else some (.aend n (as ++ [(a, v)]), []))
    else if c = '<' ∨ c = '&' ∨ c = '\r' then none
    else some (.aval n as a q (v ++ [if c = '\n' ∨ c = '\t' then ' ' else c]), [])
  | .aend n as, c =>
    if isXmlWs c then some (.gap n as, [])
    else if c = '>' then some (.text [], [.start n as])
    else if c = '/' then some (.slash n as, [])
    else none
  | .slash n as, c => if c = '>' then some (.text [], [.start n as, .stop n]) else none

def lrun : Mode → Str → Option (Mode × List Event)
  | m, [] => some (m, [])
  | m, c :: s =>
    match lstep m c with
    | none => none
    | some (m', e) =>
      match lrun m' s with
      | none => none
      | some (m'', e') => some (m'', e ++ e')

def lex (s : Str) : Option (List Event) :=
  match lrun (.text []) s with
  | some (.text buf, e) => (flush buf).map fun e' => e ++ e'
  | _ => none

/-! ### the handler -/

/-- An open tag: `open[level]` with the fields collected so far, and `buffer[level]`. -/
structure Frame where
  name : Str
  attrs : List (Str × Str)
  kids : List Node
  buf : Str

/-- Handler state: the open tags, innermost first, and the finished document element. In the code a child is put into its parent's
fields when its tag opens, here when it closes; the order is the same because tags nest. The `root` node is not represented: it holds
the document element. -/
structure HSt where
  stack : List Frame
  doc : Option Node

/-- `startElement`, `characters`, `endElement`, with expat's checks: one document element, nothing but blanks outside it, matching
names. -/
def hstep (h : HSt) : Event → Option HSt
  | .start n as =>
    match h.stack, h.doc with
    | [], some _ => none
    | fs, d => some ⟨⟨n, as, [], []⟩ :: fs, d⟩
  | .chars s =>
    match h.stack with
    | [] => if s.all isXmlWs then some h else none
    | f :: fs => some { h with stack := { f with buf := f.buf ++ s } :: fs }
  | .stop n =>
    match h.stack with
    | [] => none
    | f :: fs =>
      if f.name ≠ n then none
      else match fs with
        | [] => some ⟨[], some (.mk f.name f.attrs f.kids f.buf)⟩
        | g :: gs => some { h with stack := { g with kids := g.kids ++ [.mk f.name f.attrs f.kids f.buf] } :: gs }

def hrun : HSt → List Event → Option HSt
  | h, [] => some h
  | h, e :: es =>
    match hstep h e with
    | none => none
    | some h' => hrun h' es

/-- The document element, once everything is closed. -/
def handle (es : List Event) : Option Node :=
  match hrun ⟨[], none⟩ es with
  | some ⟨[], some t⟩ => some t
  | _ => none

/-- `xml_parse_string`: the document element. -/
def parseDoc (s : Str) : Option Node := (lex s).bind handle

end Verif.Xml
