/-
Python string operations used throughout /repo, on lists of characters: `str.strip`, `str.split`, `str.partition`, `int()`,
`str(int)`. These are models of the language's library, not of code in /repo.
-/
namespace Verif.Text

abbrev Str := List Char

/-- `str.isspace` for one character. -/
def isWs (c : Char) : Bool :=
  let n := c.toNat
  (9 ≤ n && n ≤ 13) || (28 ≤ n && n ≤ 32) || n = 0x85 || n = 0xa0 || n = 0x1680 || (0x2000 ≤ n && n ≤ 0x200a) ||
    n = 0x2028 || n = 0x2029 || n = 0x202f || n = 0x205f || n = 0x3000

/-- `s.lstrip()` with respect to a set of characters. -/
def lstripP (p : Char → Bool) (s : Str) : Str := s.dropWhile p

/-- `s.rstrip()` with respect to a set of characters. -/
def rstripP (p : Char → Bool) (s : Str) : Str := (s.reverse.dropWhile p).reverse

/-- `s.strip()` with respect to a set of characters. -/
def stripP (p : Char → Bool) (s : Str) : Str := rstripP p (lstripP p s)

/-- `s.strip()` -/
def strip (s : Str) : Str := stripP isWs s

/-- `s.partition(sep)` for one-character separators: the part before the first separator, and what follows it if there is
one. -/
def partition (sep : Char) : Str → Str × Option Str
  | [] => ([], none)
  | c :: cs =>
    if c = sep then ([], some cs)
    else ((c :: (partition sep cs).1), (partition sep cs).2)

/-- `s.split(sep)` for one-character separators; never empty. -/
def splitOn (sep : Char) : Str → List Str
  | [] => [[]]
  | c :: cs =>
    if c = sep then [] :: splitOn sep cs
    else match splitOn sep cs with
      | [] => [[c]]
      | w :: ws => (c :: w) :: ws

/-- `s.split()`: maximal runs of non-white characters. -/
def splitWs : Str → List Str
  | [] => []
  | c :: cs =>
    if isWs c then splitWs cs
    else match cs with
      | [] => [[c]]
      | d :: _ => if isWs d then [c] :: splitWs cs else
        match splitWs cs with
        | [] => [[c]]
        | w :: ws => (c :: w) :: ws

def digitChar (d : Nat) : Char := Char.ofNat (48 + d)

def isDigit (c : Char) : Bool := 48 ≤ c.toNat && c.toNat ≤ 57

def digitVal (c : Char) : Nat := c.toNat - 48

/-- Decimal digits of a number. -/
def showNat (n : Nat) : Str :=
  if _h : n < 10 then [digitChar n] else showNat (n / 10) ++ [digitChar (n % 10)]
termination_by n

/-- `"%d" % i` and `str(i)`. -/
def showInt : Int → Str
  | .ofNat n => showNat n
  | .negSucc n => '-' :: showNat (n + 1)

/-- Unsigned part of `int(s)`: ASCII digits, with single underscores between digits. Other unicode digits, which python accepts
too, are left out. -/
def parseNatAux : Str → Bool → Nat → Option Nat
  | [], prev, acc => if prev then some acc else none
  | c :: cs, prev, acc =>
    if isDigit c then parseNatAux cs true (acc * 10 + digitVal c)
    else if c = '_' ∧ prev = true then parseNatAux cs false acc
    else none

def parseNat (s : Str) : Option Nat := parseNatAux s false 0

/-- `int(s)`: white space around the number is ignored; `none` is `ValueError`. -/
def parseInt (s : Str) : Option Int :=
  match strip s with
  | '-' :: r => (parseNat r).map fun (n : Nat) => -(n : Int)
  | '+' :: r => (parseNat r).map fun (n : Nat) => (n : Int)
  | r => (parseNat r).map fun (n : Nat) => (n : Int)

/-- `sep.join(parts)` -/
def join (sep : Str) : List Str → Str
  | [] => []
  | [x] => x
  | x :: y :: xs => x ++ sep ++ join sep (y :: xs)

end Verif.Text
