import Verif.Io.Traj
import Verif.Io.Values
/-
Model of PDB files: `print_pdb` (ipi/utils/io/backends/io_pdb.py:83-132), `print_pdb_path` (22-80), `read_pdb` (135-200), and of
`iter_file_raw` (ipi/utils/io/__init__.py:340-366) on them.

Numbers are already rounded to the printed decimals: sign and integer multiple of 10^-3 (coordinates, cell lengths) or 10^-2 (angles). The
conversion from and to the cell matrix and the look-up of masses are left out.
-/
namespace Verif.Pdb
open Verif.Text Verif.Traj Verif.Values

/-- Sign and number of units in the last place. -/
abbrev Fix := Bool × Nat

/-- `"%.kf"` -/
def showFix (k : Nat) (x : Fix) : Str := (if x.1 then ['-'] else []) ++ showNat (x.2 / 10 ^ k) ++ '.' :: padNat k (x.2 % 10 ^ k)

/-- `"%n.kf"` -/
def field (n k : Nat) (x : Fix) : Str := padL n (showFix k x)

structure Atom where
  name : Str
  x : Fix
  y : Fix
  z : Fix
deriving DecidableEq

/-- Lengths and angles of the cell. -/
structure Cell (T : Type) where
  a : T
  b : T
  c : T
  alpha : T
  beta : T
  gamma : T
deriving DecidableEq

structure Frame where
  title : Str
  cell : Cell Fix
  atoms : List Atom
deriving DecidableEq

/-- `"ATOM  %5i %4s%1s%3s %1s%4i%1s"`, then blanks, then the numbers: 27 columns before the blanks. `gap` is 3 in `print_pdb` and 2 in `print_pdb_path`. -/
def atomLine (gap i : Nat) (a : Atom) : Str :=
  "ATOM  ".toList ++ (padL 5 (showNat i) ++ ' ' :: (padL 4 a.name ++ (" ".toList ++ ("  1".toList ++ (' ' :: (" ".toList ++ ("   1".toList ++ (" ".toList ++ (List.replicate gap ' ' ++
    (field 8 3 a.x ++ (field 8 3 a.y ++ (field 8 3 a.z ++ ("  0.00  0.00          ".toList ++ "   0".toList)))))))))))))

/-- The atoms of a frame, numbered from `i`. -/
def atomLines (gap : Nat) : Nat → List Atom → Str
  | _, [] => []
  | i, a :: as => atomLine gap i a ++ '\n' :: atomLines gap (i + 1) as

/-- `"CRYST1%9.3f%9.3f%9.3f%7.2f%7.2f%7.2f%s%4i"` -/
def crystLine (c : Cell Fix) : Str :=
  "CRYST1".toList ++ (field 9 3 c.a ++ (field 9 3 c.b ++ (field 9 3 c.c ++ (field 7 2 c.alpha ++ (field 7 2 c.beta ++ (field 7 2 c.gamma ++ " P 1           1".toList))))))

def titleLine (t : Str) : Str := "TITLE   ".toList ++ padL 70 t

def kEnd : Str := "END".toList

/-- `print_pdb` -/
def writeFrame (f : Frame) : Str :=
  (if f.title = [] then [] else titleLine f.title ++ ['\n']) ++ (crystLine f.cell ++ '\n' :: (atomLines 3 1 f.atoms ++ (kEnd ++ ['\n'])))

def writeAll (fs : List Frame) : Str := fs.flatMap writeFrame

/-- `print_pdb_path`: all replicas in one frame, then the springs. -/
def writePath (cell : Cell Fix) (beads : List (List Atom)) (springs : List (Nat × Nat)) : Str :=
  crystLine cell ++ '\n' :: (atomLines 2 1 beads.flatten ++
    ((springs.flatMap fun s => "CONECT".toList ++ padL 5 (showNat s.1) ++ padL 5 (showNat s.2) ++ ['\n']) ++ (kEnd ++ ['\n'])))

/-! ### reading -/

/-- `s[a:b]` -/
def slice (a b : Nat) (s : Str) : Str := (s.drop a).take (b - a)

/-- `part in s` -/
def hasInfix (p : Str) : Str → Bool
  | [] => p.isEmpty
  | c :: s => p.isPrefixOf (c :: s) || hasInfix p s

abbrev Num := Bool × Nat × Int

structure GotAtom where
  name : Str
  x : Num
  y : Num
  z : Num
deriving DecidableEq

/-- One line of the body (io_pdb.py:179-191). -/
def readAtom (l : Str) : Option GotAtom :=
  match readFloat (slice 31 39 l), readFloat (slice 39 47 l), readFloat (slice 47 55 l) with
  | some x, some y, some z => some ⟨(strip (slice 12 16 l)).take 4, x, y, z⟩
  | _, _, _ => none

/-- The loop over the body: up to a blank line, `END` or the end of the file; that line is consumed. -/
def readBody : List Str → Option (List GotAtom × List Str)
  | [] => some ([], [])
  | l :: ls =>
    if strip l = [] ∨ strip l = kEnd then some ([], ls)
    else
      match readAtom l, readBody ls with
      | some a, some (as, r) => some (a :: as, r)
      | _, _ => none

/-- The cell (io_pdb.py:162-167). -/
def readCell (h : Str) : Option (Cell Num) :=
  match readFloat (slice 6 15 h), readFloat (slice 15 24 h), readFloat (slice 24 33 h), readFloat (slice 33 40 h), readFloat (slice 40 47 h), readFloat (slice 47 54 h) with
  | some a, some b, some c, some d, some e, some f => some ⟨a, b, c, d, e, f⟩
  | _, _, _, _, _, _ => none

/-- The comment handed on, with the default units added (io_pdb.py:147-158). -/
def comment (c : Str) : Str :=
  let c := if hasInfix "positions{".toList c then c else strip c ++ " positions{angstrom}\n".toList
  if hasInfix "cell{".toList c then c else strip c ++ " cell{angstrom}\n".toList

structure Got where
  comment : Str
  cell : Cell Num
  atoms : List GotAtom
deriving DecidableEq

inductive Res where
  | eof
  | err
  | ok (f : Got) (rest : List Str)
deriving DecidableEq

def kDefault : Str := "# comment line might contain special i-PI keywords ".toList

/-- From the line with the cell on. -/
def readFrom (c : Str) : List Str → Res
  | [] => .eof
  | h :: ls =>
    match readCell h with
    | none => .err
    | some cell =>
      match readBody ls with
      | none => .err
      | some (as, r) => .ok ⟨comment c, cell, as⟩ r

/-- `read_pdb` -/
def readPdb : List Str → Res
  | [] => .eof
  | l :: ls => if hasInfix "TITLE".toList l then readFrom l ls else readFrom kDefault (l :: ls)

theorem readBody_length : ∀ {ls : List Str} {as : List GotAtom} {r : List Str}, readBody ls = some (as, r) → r.length ≤ ls.length := by
  intro ls
  induction ls with
  | nil => intro as r h; simp only [readBody, Option.some.injEq, Prod.mk.injEq] at h; rw [← h.2]; exact Nat.le_refl _
  | cons l ls ih =>
    intro as r h
    simp only [readBody] at h
    split at h
    · simp only [Option.some.injEq, Prod.mk.injEq] at h; rw [← h.2]; simp
    · split at h
      · rename_i h2
        simp only [Option.some.injEq, Prod.mk.injEq] at h
        have := ih h2
        rw [← h.2]
        simp only [List.length_cons]
        omega
      · cases h

theorem readFrom_length {c : Str} {ls r : List Str} {f : Got} (h : readFrom c ls = .ok f r) : r.length < ls.length := by
  cases ls with
  | nil => cases h
  | cons l ls =>
    simp only [readFrom] at h
    split at h
    · cases h
    · split at h
      · cases h
      · rename_i h2
        simp only [Res.ok.injEq] at h
        have := readBody_length h2
        rw [← h.2]
        simp only [List.length_cons]
        omega

theorem readPdb_length {ls r : List Str} {f : Got} (h : readPdb ls = .ok f r) : r.length < ls.length := by
  cases ls with
  | nil => cases h
  | cons l ls =>
    simp only [readPdb] at h
    split at h
    · have := readFrom_length h
      simp only [List.length_cons]
      omega
    · exact readFrom_length h

/-- `iter_file_raw` with `read_pdb`. -/
def iterFile (ls : List Str) : List Got × Bool :=
  match _h : readPdb ls with
  | .eof => ([], true)
  | .err => ([], false)
  | .ok f r => (f :: (iterFile r).1, (iterFile r).2)
termination_by ls.length
decreasing_by all_goals exact readPdb_length _h

end Verif.Pdb
