import Verif.Text.Model
/-
Model of the text form of values (ipi/utils/io/inputs/io_xml.py): `read_bool` 334-354, `read_list` 357-397, `read_array` 400-421,
`read_tuple` 424-450, `read_dict` 453-488, `write_list` 523-546, `write_tuple` 549-562, `write_float` 565-581, `write_bool` 584-596,
`write_dict` 599-618; `read_value` (ipi/utils/io/inputs/__init__.py:15-27); `InputArray.write` (ipi/utils/inputvalue.py:1254-1293).
Exceptions are `none`.
-/
namespace Verif.Values
open Verif.Text

/-! ### booleans and strings -/

/-- `s.upper()` on ASCII letters. -/
def upperC (c : Char) : Char := if 97 ≤ c.toNat ∧ c.toNat ≤ 122 then Char.ofNat (c.toNat - 32) else c

/-- `"%5.5s" % str(b)` -/
def writeBool : Bool → Str
  | true => " True".toList
  | false => "False".toList

def readBool (s : Str) : Option Bool :=
  if (strip s).map upperC = "TRUE".toList then some true
  else if (strip s).map upperC = "FALSE".toList then some false
  else none

/-- strings are stripped both ways (`str.strip` in both tables) -/
def writeStr (s : Str) : Str := strip s
def readStr (s : Str) : Str := strip s

/-! ### lists -/

/-- The characters removed around list elements, `" \n\t'"`. -/
def listStrip (c : Char) : Bool := c = ' ' || c = '\n' || c = '\t' || c = '\''

/-- `rstrip(", ")` -/
def commaStrip (c : Char) : Bool := c = ',' || c = ' '

/-- `s.index(c)`: the part before and the part after the first `c`. -/
def cutAt (c : Char) (s : Str) : Option (Str × Str) :=
  match partition c s with
  | (_, none) => none
  | (a, some b) => some (a, b)

/-- `data[begin + 1 : end]` with the first occurrences of the two delimiters in the whole text (io_xml.py:385-391). If the closing one
comes first the slice is empty. -/
def between (d1 d2 : Char) (s : Str) : Option Str :=
  match cutAt d1 s, cutAt d2 s with
  | some (a, _), some (b, _) => some (b.drop (a.length + 1))
  | _, _ => none

/-- `read_list` -/
def readList (d1 d2 : Char) (sep : Char) (p : Char → Bool) (s : Str) : Option (List Str) :=
  match between d1 d2 s with
  | none => none
  | some body =>
    let l := (splitOn sep body).map (stripP p)
    some (if l = [[]] then [] else l)

/-- `write_list`: every element followed by `", "`, then `rstrip(", ")` on everything written so far. -/
def writeList (d1 d2 : Char) (ws : List Str) : Str := rstripP commaStrip ([d1] ++ (ws.map (· ++ [',', ' '])).flatten) ++ [d2]

/-- `read_array` / `read_tuple`: convert each element; an error in one is an error. -/
def readAll {V : Type} (rd : Str → Option V) : List Str → Option (List V)
  | [] => some []
  | w :: ws =>
    match rd w, readAll rd ws with
    | some v, some vs => some (v :: vs)
    | _, _ => none

def writeTuple (ns : List Int) : Str := writeList '(' ')' (ns.map showInt)
def readTuple (s : Str) : Option (List Int) := (readList '(' ')' ',' listStrip s).bind (readAll parseInt)

/-- Text before element `i` of an array: a line break every five elements (inputvalue.py:1282-1284). -/
def lineSep (indent : Str) (long : Bool) (i : Nat) : Str := if long = true ∧ 0 < i ∧ i % 5 = 0 then '\n' :: indent ++ [' ', ' ', ' '] else []

/-- Elements with separators, from element `i` on. -/
def arrayBody (indent : Str) (long : Bool) : Nat → List Str → Str
  | _, [] => []
  | i, w :: ws => lineSep indent long i ++ w ++ [',', ' '] ++ arrayBody indent long (i + 1) ws

/-- `InputArray.write` (text part). -/
def writeArray (indent : Str) (ws : List Str) : Str :=
  let long := decide (5 < ws.length)
  let head := if long then '\n' :: indent ++ [' ', '[', ' '] else [' ', '[', ' ']
  rstripP commaStrip (head ++ arrayBody indent long 0 ws) ++ (if long then [' ', ']', '\n'] else [' ', ']', ' '])

/-- `read_array` (text part). -/
def readArray {V : Type} (rd : Str → Option V) (s : Str) : Option (List V) := (readList '[' ']' ',' listStrip s).bind (readAll rd)

/-! ### floating point numbers -/

/-- A printed number: `± m × 10^(e - 8)` with nine significant digits. -/
structure Dec where
  neg : Bool
  m : Nat
  e : Int
deriving DecidableEq

/-- Exactly `k` digits. -/
def padNat : Nat → Nat → Str
  | 0, _ => []
  | k + 1, n => padNat k (n / 10) ++ [digitChar (n % 10)]

/-- `"%16.8e" % x`, given the rounded number: right-aligned in 16 characters. -/
def showDec (d : Dec) : Str :=
  let ds := padNat 9 d.m
  let expo := (if d.e < 0 then ['-'] else ['+']) ++ (if d.e.natAbs < 10 then ['0'] ++ showNat d.e.natAbs else showNat d.e.natAbs)
  let body := (if d.neg then ['-'] else []) ++ ds.take 1 ++ ['.'] ++ ds.drop 1 ++ ['e'] ++ expo
  List.replicate (16 - body.length) ' ' ++ body

def digitsVal (s : Str) : Nat := s.foldl (fun x c => x * 10 + digitVal c) 0

/-- Exponent part of `float(s)`. -/
def readExp : Str → Option Int
  | [] => some 0
  | c :: s =>
    if c = 'e' ∨ c = 'E' then
      match s with
      | '-' :: t => if t ≠ [] ∧ t.all isDigit = true then some (-(digitsVal t : Int)) else none
      | '+' :: t => if t ≠ [] ∧ t.all isDigit = true then some (digitsVal t : Int) else none
      | t => if t ≠ [] ∧ t.all isDigit = true then some (digitsVal t : Int) else none
    else none

/-- Unsigned part of `float(s)`: digits, optional fraction and exponent; the value is `m × 10^e`. Underscores, `inf` and `nan` are left
out. -/
def readUFloat (s : Str) : Option (Nat × Int) :=
  let a := s.takeWhile isDigit
  let r := s.dropWhile isDigit
  match r with
  | '.' :: r' =>
    let b := r'.takeWhile isDigit
    if a = [] ∧ b = [] then none
    else (readExp (r'.dropWhile isDigit)).map fun e => (digitsVal (a ++ b), e - (b.length : Int))
  | _ => if a = [] then none else (readExp r).map fun e => (digitsVal a, e)

/-- `float(s)`: sign, mantissa and exponent. -/
def readFloat (s : Str) : Option (Bool × Nat × Int) :=
  match strip s with
  | '-' :: r => (readUFloat r).map fun v => (true, v)
  | '+' :: r => (readUFloat r).map fun v => (false, v)
  | r => (readUFloat r).map fun v => (false, v)

/-! ### dictionaries -/

/-- Values that `read_value` produces; `F` is the type of floating point numbers. -/
inductive Val (F : Type) where
  | int (i : Int)
  | float (x : F)
  | bool (b : Bool)
  | str (s : Str)

/-- How python converts floating point numbers to text (`str`) and back (`float()`). -/
structure FloatText (F : Type) where
  show_ : F → Str
  parse : Str → Option F

/-- `s.lower()` on ASCII letters. -/
def lowerC (c : Char) : Char := if 65 ≤ c.toNat ∧ c.toNat ≤ 90 then Char.ofNat (c.toNat + 32) else c

/-- `read_value` -/
def readValue {F : Type} (ft : FloatText F) (s0 : Str) : Val F :=
  let s := strip s0
  match parseInt s with
  | some i => .int i
  | none =>
    match ft.parse s with
    | some x => .float x
    | none =>
      if s.map lowerC = "false".toList then .bool false
      else if s.map lowerC = "true".toList then .bool true
      else .str s

/-- `str(v)` -/
def showVal {F : Type} (ft : FloatText F) : Val F → Str
  | .int i => showInt i
  | .float x => ft.show_ x
  | .bool true => "True".toList
  | .bool false => "False".toList
  | .str s => s

/-- The characters removed around dictionary entries, `" \n\t"`. -/
def dictStrip (c : Char) : Bool := c = ' ' || c = '\n' || c = '\t'

/-- `d[k] = v`: keeps the position of an existing key. -/
def insert {V : Type} (d : List (Str × V)) (k : Str) (v : V) : List (Str × V) :=
  if k ∈ d.map (·.1) then d.map fun e => if e.1 = k then (k, v) else e else d ++ [(k, v)]

/-- The loop of `read_dict` (io_xml.py:481-486). -/
def readItems {F : Type} (ft : FloatText F) : List Str → List (Str × Val F) → Option (List (Str × Val F))
  | [], d => some d
  | s :: ss, d =>
    match partition ':' s with
    | (_, none) => none
    | (k, some v) => readItems ft ss (insert d (stripP dictStrip k) (readValue ft (stripP dictStrip v)))

def readDict {F : Type} (ft : FloatText F) (s : Str) : Option (List (Str × Val F)) :=
  (readList '{' '}' ',' dictStrip s).bind fun l => readItems ft l []

/-- `write_dict`: the final `strip(", ")` acts on the text with the opening brace, so only on its right end. -/
def writeDict {F : Type} (ft : FloatText F) (d : List (Str × Val F)) : Str :=
  rstripP commaStrip (['{'] ++ (d.map fun e => e.1 ++ [':', ' '] ++ showVal ft e.2 ++ [',', ' ']).flatten) ++ ['}']

end Verif.Values
