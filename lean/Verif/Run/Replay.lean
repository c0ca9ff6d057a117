import Verif.Io.TrajUnits

/-
Model of the replay of a trajectory: `Replay` of ipi/engine/motion/replay.py.

Frames carry the positions of one bead and the cell, `none` for a cell of volume zero or less.  Files are lists of frames; reading the text is
C31 and C32.  Left out: the modes `ase` and `chk`, the timing attributes, and the size check of numpy on `b.q[:] = …`.
-/
namespace Verif.Replay
open Verif.Text Verif.Units Verif.TrajUnits

/-- One frame as `read_file` returns it. -/
structure Frame (Q C : Type) where
  q : Q
  cell : Option C

/-- `self.rfile`: one file for all beads, or one file for each bead (replay.py:62-92). -/
inductive Source (Q C : Type) where
  | one (frames : List (Frame Q C))
  | each (files : List (List (Frame Q C)))

/-- The replay (`rstep`, the open files) with the beads and the cell it acts on. -/
structure State (Q C : Type) where
  rstep : Nat
  src : Source Q C
  beads : List Q
  cell : C
  finished : Bool

variable {Q C : Type}

/-- The loop over the beads with one file (replay.py:115-125): the beads after it, the last frame read, what is left of the file, and whether
`EOFError` was raised.  Beads after the failing one keep their positions. -/
def readOne : List Q → Option (Frame Q C) → List (Frame Q C) → List Q × Option (Frame Q C) × List (Frame Q C) × Bool
  | [], last, fs => ([], last, fs, false)
  | b :: bs, last, [] => (b :: bs, last, [], true)
  | _ :: bs, _, f :: fs =>
    let r := readOne bs (some f) fs
    (f.q :: r.1, r.2)

/-- The same loop with one file for each bead. -/
def readEach : List Q → Option (Frame Q C) → List (List (Frame Q C)) → List Q × Option (Frame Q C) × List (List (Frame Q C)) × Bool
  | [], last, fs => ([], last, fs, false)
  | bs, last, [] => (bs, last, [], true)
  | b :: bs, last, [] :: fs => (b :: bs, last, [] :: fs, true)
  | _ :: bs, _, (f :: g) :: fs =>
    let r := readEach bs (some f) fs
    (f.q :: r.1, r.2.1, g :: r.2.2.1, r.2.2.2)

/-- `if mycell.V > 0: self.cell.h[:] = mycell.h` (replay.py:162-163) with the cell of the last frame read. -/
def newCell (old : C) : Option (Frame Q C) → C
  | some ⟨_, some c⟩ => c
  | _ => old

/-- One round of `while True` (replay.py:112-168).  At the end of a file `finish` is called and the cell is not assigned. -/
def pass (s : State Q C) : State Q C :=
  match s.src with
  | .one fs =>
    let r := readOne s.beads none fs
    if r.2.2.2 then { s with rstep := s.rstep + 1, src := .one r.2.2.1, beads := r.1, finished := true }
    else { s with rstep := s.rstep + 1, src := .one r.2.2.1, beads := r.1, cell := newCell s.cell r.2.1 }
  | .each fs =>
    let r := readEach s.beads none fs
    if r.2.2.2 then { s with rstep := s.rstep + 1, src := .each r.2.2.1, beads := r.1, finished := true }
    else { s with rstep := s.rstep + 1, src := .each r.2.2.1, beads := r.1, cell := newCell s.cell r.2.1 }

theorem pass_rstep (s : State Q C) : (pass s).rstep = s.rstep + 1 := by
  unfold pass
  split <;> (simp only []; split <;> rfl)

/-- `Replay.step(step)` (replay.py:95-173) after the check of the number of files: rounds until the end of a file or `rstep > step`. -/
def loop (step : Nat) (s : State Q C) : State Q C :=
  if (pass s).finished then pass s
  else if step < (pass s).rstep then pass s
  else loop step (pass s)
termination_by step + 1 - s.rstep
decreasing_by
  have := pass_rstep s
  omega

/-- The check of the number of files (replay.py:103-111). -/
def step (n : Nat) (s : State Q C) : Option (State Q C) :=
  match s.src with
  | .one _ => some (loop n s)
  | .each fs => if fs.length ≠ s.beads.length then none else some (loop n s)

/-- The steps `n`, `n + 1`, … , `n + k - 1` of a simulation; it ends when the motion is finished. -/
def run : Nat → Nat → State Q C → Option (State Q C)
  | _, 0, s => some s
  | n, k + 1, s => if s.finished then some s else (step n s).bind (run (n + 1) k)

/-- The factor applied to the positions of a frame (replay.py:121-124, 134-137): `read_file` converts according to the comment, and the result is
multiplied by the factor of the `units` attribute. -/
def posFactor (m : Mode) (comment units : Str) : Option Rat :=
  match processUnits m comment kAuto kAuto kAuto, toInternal kLength units 1 with
  | .ok (a, _), .ok f => some (a * f)
  | _, _ => none

end Verif.Replay
