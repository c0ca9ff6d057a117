import Verif.Text.Model
/-
Model of trajectory files in xyz format: `print_xyz` (ipi/utils/io/backends/io_xyz.py:54-80), `print_xyz_path` (25-51), `read_xyz` (91-157),
`iter_file_raw` (ipi/utils/io/__init__.py:340-366).

Numbers: `fmtE` stands for `"%.5e"`, `fmtF` for `"%.5f"`, `rd` for `float()`. A cell is the six numbers a, b, c, alpha, beta, gamma in degrees;
the conversion from and to the cell matrix is left out. Headers with `CELL{H}` or `CELL{GENH}`, which i-PI does not write, are read as
if there was no cell. Files are text with `\n` line ends. The masses looked up from the names are left out.
-/
namespace Verif.Traj
open Verif.Text

/-- Text form of numbers. -/
structure Num (V : Type) where
  fmtE : V → Str
  fmtF : V → Str
  rd : Str → Option V
  zero : V

/-- Right-aligned in `n` columns: `"%12s"` etc. -/
def padL (n : Nat) (s : Str) : Str := List.replicate (n - s.length) ' ' ++ s

structure Frame (V : Type) where
  cell : List V
  title : Str
  atoms : List (Str × V × V × V)
deriving DecidableEq

variable {V : Type}

/-- One atom: `"%8s %12.5e %12.5e %12.5e\n"`. -/
def atomLine (N : Num V) (a : Str × V × V × V) : Str :=
  padL 8 a.1 ++ ' ' :: (padL 12 (N.fmtE a.2.1) ++ ' ' :: (padL 12 (N.fmtE a.2.2.1) ++ ' ' :: padL 12 (N.fmtE a.2.2.2)))

def kHead : Str := "# CELL(abcABC): ".toList

/-- The numbers of the header, separated by two blanks. -/
def cellText (N : Num V) : List V → Str
  | [] => []
  | v :: vs => padL 10 (N.fmtF v) ++ ' ' :: ' ' :: cellText N vs

/-- Comment line of a frame, without its line end. -/
def headLine (N : Num V) (f : Frame V) : Str := kHead ++ (cellText N f.cell ++ f.title)

/-- `print_xyz` -/
def writeFrame (N : Num V) (f : Frame V) : Str :=
  showNat f.atoms.length ++ '\n' :: (headLine N f ++ '\n' :: (f.atoms.flatMap fun a => atomLine N a ++ ['\n']))

/-- A whole trajectory. -/
def writeAll (N : Num V) (fs : List (Frame V)) : Str := fs.flatMap (writeFrame N)

/-! ### reading -/

/-- The lines of a file, each with its line end. -/
def lines : Str → List Str
  | [] => []
  | c :: cs =>
    if c = '\n' then ['\n'] :: lines cs
    else match lines cs with
      | [] => [[c]]
      | w :: ws => (c :: w) :: ws

/-- The characters `[-+0-9\.Ee ]`. -/
def cellChar (c : Char) : Bool := c = '-' || c = '+' || isDigit c || c = '.' || c = 'E' || c = 'e' || c = ' '

def isOpen (c : Char) : Bool := c = '(' || c = '[' || c = '{'
def isClose (c : Char) : Bool := c = ')' || c = ']' || c = '}'

/-- `re.match(r"CELL[\(\[\{]abcABC[\)\]\}]: ([-+0-9\.Ee ]*)")`, group 1. -/
def cellAt : Str → Option Str
  | 'C' :: 'E' :: 'L' :: 'L' :: o :: 'a' :: 'b' :: 'c' :: 'A' :: 'B' :: 'C' :: c :: ':' :: ' ' :: r =>
    if isOpen o && isClose c then some (r.takeWhile cellChar) else none
  | _ => none

/-- `re.search`: the first place where it matches. -/
def cellSearch : Str → Option Str
  | [] => none
  | c :: cs => match cellAt (c :: cs) with
    | some g => some g
    | none => cellSearch cs

/-- Convert all. -/
def rdAll (N : Num V) : List Str → Option (List V)
  | [] => some []
  | s :: ss =>
    match N.rd s, rdAll N ss with
    | some v, some vs => some (v :: vs)
    | _, _ => none

/-- The cell of a comment line: `some none` if there is none, `none` if it cannot be read. -/
def readCell (N : Num V) (comment : Str) : Option (Option (List V)) :=
  match cellSearch comment with
  | none => some none
  | some g =>
    match rdAll N ((splitWs g).take 6) with
    | some l => if l.length = 6 then some (some l) else none
    | none => none

/-- What `read_xyz` returns. -/
structure Got (V : Type) where
  comment : Str
  cell : Option (List V)
  atoms : List (Str × V × V × V)
deriving DecidableEq

/-- How a read ends: end of file (`EOFError`), another exception, or a frame and the lines that are left. -/
inductive Res (V : Type) where
  | eof
  | err
  | ok (f : Got V) (rest : List Str)
deriving DecidableEq

/-- One atom line: name (cut to four characters) and the next three numbers. -/
def readAtom (N : Num V) (l : Str) : Option (Str × V × V × V) :=
  match splitWs l with
  | n :: x :: y :: z :: _ =>
    match N.rd x, N.rd y, N.rd z with
    | some x, some y, some z => some (n.take 4, x, y, z)
    | _, _, _ => none
  | _ => none

/-- The loop over lines, with `n` atoms to go; at the end of the file the rest stays zero. -/
def readAtoms (N : Num V) : Nat → List Str → Option (List (Str × V × V × V) × List Str)
  | 0, ls => some ([], ls)
  | n + 1, [] => some (List.replicate (n + 1) ([], N.zero, N.zero, N.zero), [])
  | n + 1, l :: ls =>
    match readAtom N l, readAtoms N n ls with
    | some a, some (as, r) => some (a :: as, r)
    | _, _ => none

/-- `read_xyz`. A frame without atoms fails (`IndexError`) unless it is at the end of the file. -/
def readXyz (N : Num V) : List Str → Res V
  | [] => .eof
  | l :: ls =>
    match parseInt l with
    | none => .eof
    | some n =>
      match ls with
      | [] => .err
      | c :: ls =>
        match readCell N c with
        | none => .err
        | some cell =>
          if n < 0 then .err
          else if n = 0 ∧ ls ≠ [] then .err
          else
            match readAtoms N n.toNat ls with
            | none => .err
            | some (as, r) => .ok ⟨c, cell, as⟩ r

theorem readAtoms_length {N : Num V} : ∀ {n : Nat} {ls : List Str} {as : List (Str × V × V × V)} {r : List Str}, readAtoms N n ls = some (as, r) → r.length ≤ ls.length := by
  intro n
  induction n with
  | zero => intro ls as r h; simp only [readAtoms, Option.some.injEq, Prod.mk.injEq] at h; rw [h.2]; exact Nat.le_refl _
  | succ n ih =>
    intro ls as r h
    cases ls with
    | nil => simp only [readAtoms, Option.some.injEq, Prod.mk.injEq] at h; rw [← h.2]; exact Nat.le_refl _
    | cons l ls =>
      simp only [readAtoms] at h
      split at h
      · rename_i h2
        simp only [Option.some.injEq, Prod.mk.injEq] at h
        have := ih h2
        rw [← h.2]
        simp only [List.length_cons]
        omega
      · cases h

theorem readXyz_length {N : Num V} {ls r : List Str} {f : Got V} (h : readXyz N ls = .ok f r) : r.length < ls.length := by
  cases ls with
  | nil => cases h
  | cons l ls =>
    simp only [readXyz] at h
    split at h
    · cases h
    · cases ls with
      | nil => cases h
      | cons c ls =>
        simp only at h
        split at h
        · cases h
        · split at h
          · cases h
          · split at h
            · cases h
            · split at h
              · cases h
              · rename_i h2
                simp only [Res.ok.injEq] at h
                have := readAtoms_length h2
                rw [← h.2]
                simp only [List.length_cons]
                omega

/-- `iter_file_raw`: all frames, and whether an exception other than `EOFError` ended the loop. -/
def iterFile (N : Num V) (ls : List Str) : List (Got V) × Bool :=
  match _h : readXyz N ls with
  | .eof => ([], true)
  | .err => ([], false)
  | .ok f r => (f :: (iterFile N r).1, (iterFile N r).2)
termination_by ls.length
decreasing_by all_goals exact readXyz_length _h

end Verif.Traj
