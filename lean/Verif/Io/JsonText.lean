import Verif.Text.Model
/-
Model of `json.loads` and `json.dumps` (python standard library) as used by /repo (interfaces/utils.py, drivers, io_json.py), and of
`parse_extra` (ipi/interfaces/utils.py:10-28).

Numbers are kept as their text. Strings with a lone surrogate, which python accepts, are rejected here. Limits of python (recursion depth,
digits of an integer) are left out: beyond them `json.loads` raises an exception, which `parse_extra` treats as "not JSON".
-/
namespace Verif.JsonText
open Verif.Text

/-- JSON values. -/
inductive JV where
  | null
  | bool (b : Bool)
  | num (text : Str)
  | str (s : Str)
  | arr (l : List JV)
  | obj (d : List (Str × JV))

/-- White space of JSON. -/
def isJws (c : Char) : Bool := c = ' ' || c = '\t' || c = '\n' || c = '\r'

def skipWs (s : Str) : Str := s.dropWhile isJws

/-! ### strings -/

def hexVal (c : Char) : Option Nat :=
  if isDigit c then some (c.toNat - 48)
  else if 97 ≤ c.toNat ∧ c.toNat ≤ 102 then some (c.toNat - 87)
  else if 65 ≤ c.toNat ∧ c.toNat ≤ 70 then some (c.toNat - 55)
  else none

def hex4 (a b c d : Char) : Option Nat :=
  match hexVal a, hexVal b, hexVal c, hexVal d with
  | some a, some b, some c, some d => some (((a * 16 + b) * 16 + c) * 16 + d)
  | _, _, _, _ => none

/-- Characters after a backslash. -/
def unescape : Char → Option Char
  | '"' => some '"'
  | '\\' => some '\\'
  | '/' => some '/'
  | 'b' => some (Char.ofNat 8)
  | 'f' => some (Char.ofNat 12)
  | 'n' => some '\n'
  | 'r' => some '\r'
  | 't' => some '\t'
  | _ => none

/-- A unit that is not a surrogate. -/
def plainUnit (n : Nat) : Option Char := if n < 0xd800 ∨ 0xdfff < n then some (Char.ofNat n) else none

/-- A surrogate pair. -/
def pairUnit (h l : Nat) : Option Char :=
  if 0xd800 ≤ h ∧ h ≤ 0xdbff ∧ 0xdc00 ≤ l ∧ l ≤ 0xdfff then some (Char.ofNat (0x10000 + (h - 0xd800) * 1024 + (l - 0xdc00))) else none

/-- `scanstring`: contents after the opening quote, and what follows the closing one. Control characters are not allowed. -/
def parseStr : Str → Option (Str × Str)
  | [] => none
  | '"' :: r => some ([], r)
  | '\\' :: 'u' :: a :: b :: c :: d :: r =>
    match (hex4 a b c d).bind plainUnit with
    | some ch => (parseStr r).map fun x => (ch :: x.1, x.2)
    | none =>
      match r with
      | '\\' :: 'u' :: e :: f :: g :: h :: r' =>
        match hex4 a b c d, hex4 e f g h with
        | some x, some y =>
          match pairUnit x y with
          | some ch => (parseStr r').map fun z => (ch :: z.1, z.2)
          | none => none
        | _, _ => none
      | _ => none
  | '\\' :: e :: r =>
    match unescape e with
    | some c => (parseStr r).map fun x => (c :: x.1, x.2)
    | none => none
  | c :: r => if c = '\\' ∨ c.toNat < 32 then none else (parseStr r).map fun x => (c :: x.1, x.2)

/-! ### numbers -/

/-- `(\.\d+)?` -/
def fracPart (s : Str) : Str × Str :=
  match s with
  | '.' :: r => if r.takeWhile isDigit = [] then ([], s) else ('.' :: r.takeWhile isDigit, r.dropWhile isDigit)
  | _ => ([], s)

/-- `([eE][-+]?\d+)?` -/
def expPart (s : Str) : Str × Str :=
  match s with
  | c :: r =>
    if c = 'e' ∨ c = 'E' then
      match r with
      | '-' :: r' => if r'.takeWhile isDigit = [] then ([], s) else (c :: '-' :: r'.takeWhile isDigit, r'.dropWhile isDigit)
      | '+' :: r' => if r'.takeWhile isDigit = [] then ([], s) else (c :: '+' :: r'.takeWhile isDigit, r'.dropWhile isDigit)
      | r' => if r'.takeWhile isDigit = [] then ([], s) else (c :: r'.takeWhile isDigit, r'.dropWhile isDigit)
    else ([], s)
  | [] => ([], s)

/-- `0|[1-9]\d*` -/
def intPart (s : Str) : Option (Str × Str) :=
  match s with
  | '0' :: r => some (['0'], r)
  | c :: r => if isDigit c then some (c :: r.takeWhile isDigit, r.dropWhile isDigit) else none
  | [] => none

/-- Unsigned number. -/
def parseUnum (s : Str) : Option (Str × Str) :=
  match intPart s with
  | none => none
  | some (i, r) => some (i ++ (fracPart r).1 ++ (expPart (fracPart r).2).1, (expPart (fracPart r).2).2)

/-- A number, or one of the constants `NaN`, `Infinity`, `-Infinity`. -/
def parseNum (s : Str) : Option (JV × Str) :=
  match s with
  | 'N' :: 'a' :: 'N' :: r => some (.num "NaN".toList, r)
  | 'I' :: 'n' :: 'f' :: 'i' :: 'n' :: 'i' :: 't' :: 'y' :: r => some (.num "Infinity".toList, r)
  | '-' :: 'I' :: 'n' :: 'f' :: 'i' :: 'n' :: 'i' :: 't' :: 'y' :: r => some (.num "-Infinity".toList, r)
  | '-' :: r => (parseUnum r).map fun x => (.num ('-' :: x.1), x.2)
  | r => (parseUnum r).map fun x => (.num x.1, x.2)

/-! ### values -/

mutual
/-- `scan_once`; the first argument bounds the work. -/
def parseVal : Nat → Str → Option (JV × Str)
  | 0, _ => none
  | f + 1, s =>
    match s with
    | '"' :: r => (parseStr r).map fun x => (.str x.1, x.2)
    | '{' :: r =>
      match skipWs r with
      | '}' :: r' => some (.obj [], r')
      | r' => (parseMembers f r').map fun x => (.obj x.1, x.2)
    | '[' :: r =>
      match skipWs r with
      | ']' :: r' => some (.arr [], r')
      | r' => (parseItems f r').map fun x => (.arr x.1, x.2)
    | 'n' :: 'u' :: 'l' :: 'l' :: r => some (.null, r)
    | 't' :: 'r' :: 'u' :: 'e' :: r => some (.bool true, r)
    | 'f' :: 'a' :: 'l' :: 's' :: 'e' :: r => some (.bool false, r)
    | r => parseNum r
/-- `JSONArray` after the opening bracket. -/
def parseItems : Nat → Str → Option (List JV × Str)
  | 0, _ => none
  | f + 1, s =>
    match parseVal f s with
    | none => none
    | some (v, r) =>
      match skipWs r with
      | ',' :: r' => (parseItems f (skipWs r')).map fun x => (v :: x.1, x.2)
      | ']' :: r' => some ([v], r')
      | _ => none
/-- `JSONObject` after the opening brace; pairs as they come. -/
def parseMembers : Nat → Str → Option (List (Str × JV) × Str)
  | 0, _ => none
  | f + 1, s =>
    match s with
    | '"' :: r =>
      match parseStr r with
      | none => none
      | some (k, r1) =>
        match skipWs r1 with
        | ':' :: r2 =>
          match parseVal f (skipWs r2) with
          | none => none
          | some (v, r3) =>
            match skipWs r3 with
            | ',' :: r4 => (parseMembers f (skipWs r4)).map fun x => ((k, v) :: x.1, x.2)
            | '}' :: r4 => some ([(k, v)], r4)
            | _ => none
        | _ => none
    | _ => none
end

/-- `json.loads(s)`; `none` is `JSONDecodeError`. Objects keep all pairs: a dictionary keeps the last of each name. -/
def loads (s : Str) : Option JV :=
  match parseVal (s.length + 1) (skipWs s) with
  | some (v, r) => if skipWs r = [] then some v else none
  | none => none

/-! ### writing -/

def hexChar (n : Nat) : Char := if n < 10 then Char.ofNat (48 + n) else Char.ofNat (87 + n)

/-- `'\\u{0:04x}'` -/
def showUnit (n : Nat) : Str := ['\\', 'u', hexChar (n / 4096 % 16), hexChar (n / 256 % 16), hexChar (n / 16 % 16), hexChar (n % 16)]

/-- `py_encode_basestring_ascii` on one character. -/
def escapeChar (c : Char) : Str :=
  if c = '"' then ['\\', '"']
  else if c = '\\' then ['\\', '\\']
  else if c = '\n' then ['\\', 'n']
  else if c = '\r' then ['\\', 'r']
  else if c = '\t' then ['\\', 't']
  else if c.toNat = 12 then ['\\', 'f']
  else if c.toNat = 8 then ['\\', 'b']
  else if 32 ≤ c.toNat ∧ c.toNat ≤ 126 then [c]
  else if c.toNat < 0x10000 then showUnit c.toNat
  else showUnit (0xd800 + (c.toNat - 0x10000) / 1024) ++ showUnit (0xdc00 + (c.toNat - 0x10000) % 1024)

def dumpStr (s : Str) : Str := '"' :: (s.flatMap escapeChar ++ ['"'])

mutual
/-- `json.dumps(v)` with the default separators. -/
def dumps : JV → Str
  | .null => "null".toList
  | .bool true => "true".toList
  | .bool false => "false".toList
  | .num t => t
  | .str s => dumpStr s
  | .arr [] => ['[', ']']
  | .arr (v :: l) => '[' :: (dumps v ++ dumpItems l)
  | .obj [] => ['{', '}']
  | .obj ((k, v) :: d) => '{' :: (dumpStr k ++ [':', ' '] ++ dumps v ++ dumpMembers d)
def dumpItems : List JV → Str
  | [] => [']']
  | v :: l => ',' :: ' ' :: (dumps v ++ dumpItems l)
def dumpMembers : List (Str × JV) → Str
  | [] => ['}']
  | (k, v) :: d => ',' :: ' ' :: (dumpStr k ++ [':', ' '] ++ dumps v ++ dumpMembers d)
end

/-! ### `parse_extra` -/

inductive Err where
  | valueError
  | typeError
deriving DecidableEq, Repr

def kRaw : Str := "raw".toList

/-- `"raw" in text` -/
def hasInfix (p : Str) : Str → Bool
  | [] => p.isEmpty
  | c :: s => p.isPrefixOf (c :: s) || hasInfix p s

/-- `dict(pairs)`: the last value of a name, at the place of the first. -/
def dictOf : List (Str × JV) → List (Str × JV) → List (Str × JV)
  | [], d => d
  | (k, v) :: ps, d => dictOf ps (if k ∈ d.map (·.1) then d.map fun e => if e.1 = k then (k, v) else e else d ++ [(k, v)])

def isRaw : JV → Bool
  | .str s => s = kRaw
  | _ => false

/-- `parse_extra` -/
def parseExtra (s : Str) : Except Err (List (Str × JV)) :=
  if s.all isWs then .ok []
  else
    match loads s with
    | none => .ok [(kRaw, .str s)]
    | some (.obj ps) =>
      let d := dictOf ps []
      if kRaw ∈ d.map (·.1) then .error .valueError else .ok (d ++ [(kRaw, .str s)])
    | some (.arr l) => if l.any isRaw then .error .valueError else .error .typeError
    | some (.str t) => if hasInfix kRaw t then .error .valueError else .error .typeError
    | some _ => .error .typeError

end Verif.JsonText
