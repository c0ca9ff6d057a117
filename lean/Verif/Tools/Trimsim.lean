import Verif.Tools.Remdsort

/-!
# Trimming the outputs of a simulation to a checkpoint

Model of `/repo/tools/py/trimsim.py` (installed as `bin/i-pi-trimsim`).  The readers are those of
`Verif.Tools.Remdsort`; the lines cited are those of `trimsim.py`.
-/

namespace Verif.Trim

open Verif.Text Verif.Sort

/-- What is read from one file in one step (L196-201, L206-227).  The property files are read as in
the sorting script, but without the test for the end of the file: there `iline[0]` is an
IndexError. -/
def read (k : Kind) (f : List Line) : Got :=
  match k with
  | .prop => comments f
  | k => readKind k f

/-- A file that is copied: kind, stride, what is left to read and what has been written. -/
structure File where
  kind : Kind
  stride : Nat
  ifile : List Line
  ofile : List Line

/-- One file in one step. -/
def File.step (step : Nat) (f : File) : File × Option Stop :=
  if step % f.stride = 0 then
    let r := read f.kind f.ifile
    ({ f with ifile := r.rest, ofile := f.ofile ++ r.written }, r.stop)
  else (f, none)

/-- All files in one step (L193-227), in the order of the outputs and systems: first the property
files. -/
def files (step : Nat) : List File → List File × Option Stop
  | [] => ([], none)
  | f :: fs =>
      match f.step step with
      | (f', some e) => (f' :: fs, some e)
      | (f', none) => let r := files step fs; (f' :: r.1, r.2)

/-- The loop over the given steps (L191-229): EOFError, which nothing raises, would end it without an
error, as in the sorting script. -/
def loop : List Nat → List File → List File × Option Stop
  | [], fs => (fs, none)
  | t :: ts, fs =>
      match files t fs with
      | (fs', some e) => (fs', some e)
      | (fs', none) => loop ts fs'

/-- `for step in range(trimstep + 1)`. -/
def trim (trimstep : Nat) (fs : List File) : List File × Option Stop := loop (List.range (trimstep + 1)) fs

/-- The list of exchanges (L178-188): lines are copied up to the first one at or after the checkpoint.
As in the sorting script the lines are given as numbers. -/
def trimSwaps (trimstep : Nat) : List (Nat × List Nat) → List (Nat × List Nat)
  | [] => []
  | l :: more => if l.1 < trimstep then l :: trimSwaps trimstep more else []

/-- Is there a list of exchanges in the trimmed directory (L165-171)?  Only if `smotion` has the
attribute `swapfile` itself, which a list of super-motions (`multi`) has not, and if the simulation
has a prefix (`Verif.Sort.swap_file`). -/
def copiesSwaps (multi : Bool) (prefixName : Str) : Bool := !multi && decide (prefixName ≠ [])

/-- The trajectories with a file per bead (L83-88). -/
def trimPerBead : List Str := ["positions", "velocities", "forces", "extras"].map String.toList

/-- The files that are opened for a trajectory of one system (L80-161). -/
def trimFiles (name key format : Str) (ibead : Int) (nbeads : Nat) : List Str :=
  if trimPerBead.contains key then
    ((List.range nbeads).filter fun b : Nat => decide (ibead < 0) || decide (ibead = b)).map fun b =>
      name ++ '_' :: padBead nbeads b
        ++ (if key = "extras".toList then [] else extension format)
  else [name ++ '.' :: format]

end Verif.Trim
