/-
Model of binary trajectories: `print_binary` and `read_binary` (ipi/utils/io/backends/io_binary.py:17-66), `iter_file_raw`
(ipi/utils/io/__init__.py:340-366).

A file is a list of 32-bit words: every item written is a multiple of four bytes. Numbers take two words, a character one (its code point,
numpy type `U1`). Texts are lists of code points. Numpy drops null characters when an item of type `U1` becomes a string. A cell is its nine
numbers. Counts read from a file are taken as unsigned.
-/
namespace Verif.Binary

/-- 64-bit form of floating point numbers: two words. -/
structure Coding (F : Type) where
  enc : F → Nat × Nat
  dec : Nat → Nat → F
  dec_enc : ∀ x, dec (enc x).1 (enc x).2 = x

variable {F : Type}

abbrev Text := List Nat

structure Frame (F : Type) where
  cell : List F
  q : List F
  names : List Text
  title : Text
deriving DecidableEq

/-- The character `|`. -/
def bar : Nat := 124

/-- `"|".join(names)` -/
def joinBar : List Text → Text
  | [] => []
  | [n] => n
  | n :: ns => n ++ bar :: joinBar ns

/-- `names.split("|")` -/
def splitBar : Text → List Text
  | [] => [[]]
  | c :: s =>
    if c = bar then [] :: splitBar s
    else match splitBar s with
      | w :: ws => (c :: w) :: ws
      | [] => [[c]]

def floats (C : Coding F) : List F → List Nat
  | [] => []
  | x :: xs => (C.enc x).1 :: (C.enc x).2 :: floats C xs

def int64 (n : Nat) : List Nat := [n % 2 ^ 32, n / 2 ^ 32]

/-- `np.asarray([text]).tofile`: the empty text still takes one character. -/
def chars (t : Text) : List Nat := if t = [] then [0] else t

/-- `print_binary`; `natoms` is the number of names. -/
def write (C : Coding F) (f : Frame F) : List Nat :=
  floats C f.cell ++ (int64 f.names.length ++ (floats C f.q ++ (int64 (joinBar f.names).length ++ (chars (joinBar f.names) ++ chars f.title))))

def writeAll (C : Coding F) (fs : List (Frame F)) : List Nat := fs.flatMap (write C)

/-- `np.fromfile(f, dtype=float, count=n)`: at most `n` items. -/
def getFloats (C : Coding F) : Nat → List Nat → List F × List Nat
  | n + 1, a :: b :: s => ((C.dec a b) :: (getFloats C n s).1, (getFloats C n s).2)
  | _, s => ([], s)

/-- `np.fromfile(f, dtype=int, count=1)[0]` -/
def getInt : List Nat → Option (Nat × List Nat)
  | a :: b :: s => some (a + 2 ^ 32 * b, s)
  | _ => none

/-- Items of type `U1` joined to a string; an item that is not a code point raises `ValueError`. -/
def decodeText : List Nat → Option Text
  | [] => some []
  | c :: s => if c < 0x110000 then (decodeText s).map fun t => if c = 0 then t else c :: t else none

inductive Res (F : Type) where
  | eof
  | err
  | ok (f : Frame F) (rest : List Nat)

/-- `read_binary`. The title takes all that is left. -/
def read (C : Coding F) (s : List Nat) : Res F :=
  let c := getFloats C 9 s
  if c.1.length ≠ 9 then .eof
  else
    match getInt c.2 with
    | none => .err
    | some (n, s) =>
      let q := getFloats C (3 * n) s
      match getInt q.2 with
      | none => .err
      | some (m, s) =>
        match decodeText (s.take m) with
        | none => .eof
        | some names =>
          match decodeText (s.drop m) with
          | none => .eof
          | some title => .ok ⟨c.1, q.1, splitBar names, title⟩ []

/-- `iter_file_raw`: the frames, and whether the end was reached without an exception. At least one word is used up by every frame; `fuel` is
the length of the file. -/
def iter (C : Coding F) : Nat → List Nat → List (Frame F) × Bool
  | 0, _ => ([], true)
  | fuel + 1, s =>
    match read C s with
    | .eof => ([], true)
    | .err => ([], false)
    | .ok f r => (f :: (iter C fuel r).1, (iter C fuel r).2)

/-- All frames of a file. -/
def readAll (C : Coding F) (s : List Nat) : List (Frame F) × Bool := iter C (s.length + 1) s

end Verif.Binary
