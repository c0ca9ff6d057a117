import Verif.Text.Model

/-!
# Sorting the output of a replica exchange simulation

Model of `/repo/tools/py/remdsort.py` (installed as `bin/i-pi-remdsort`), and of what the simulation
writes for it to read: the file names (`/repo/ipi/engine/outputs.py`) and the list of exchanges
(`/repo/ipi/engine/smotion/remd.py`).
-/

namespace Verif.Sort

open Verif.Text

/-- A line as `readline` gives it, with the newline character. -/
abbrev Line := Str

/-- What ends the loop: EOFError is caught (L239-240), the others end the script with an error. -/
inductive Stop where
  | eof
  | value
  | index
  deriving DecidableEq, Repr

/-- `format` and type of an output: property files (`lprop`), and in `ltraj` the extras (`format` is
None), xyz or ase, pdb, and the other formats. -/
inductive Kind where
  | prop
  | extras
  | xyz
  | pdb
  | other
  deriving DecidableEq, Repr

/-- What is done with one file at one step: the lines written, what is left to read, and the
exception. -/
structure Got where
  written : List Line
  rest : List Line
  stop : Option Stop

/-- `readline`: the empty string at the end. -/
def readline : List Line → Line × List Line
  | [] => ([], [])
  | l :: r => (l, r)

/-- The `while` loop over comments (L210-213) from its test on, with the line that was read first:
at the end of the file `iline[0]` is an IndexError. -/
def comments : List Line → Got
  | [] => ⟨[], [], some .index⟩
  | l :: r =>
      if l.head? = some '#' then
        let g := comments r
        ⟨l :: g.written, g.rest, g.stop⟩
      else ⟨[l], r, none⟩

/-- A property file (L207-213). -/
def readProp (f : List Line) : Got :=
  match f with
  | [] => ⟨[], [], some .eof⟩
  | _ :: _ => comments f

/-- Extras (L220-223): two lines, at the end of the file empty ones. -/
def readExtras (f : List Line) : Got :=
  let a := readline f
  let b := readline a.2
  ⟨(if a.1 = [] then [] else [a.1]) ++ (if b.1 = [] then [] else [b.1]), b.2, none⟩

/-- `xyz` and `ase` (L224-231): `int` of the first line, or ValueError; `range` of a negative number
is empty.  Lines missing at the end of the file are empty. -/
def readXyz (f : List Line) : Got :=
  let a := readline f
  match parseInt (strip a.1) with
  | none => ⟨[], a.2, some .value⟩
  | some n => ⟨a.1 :: a.2.take (1 + n.toNat), a.2.drop (1 + n.toNat), none⟩

/-- `iline.strip() != "" and iline.strip() != "END"` fails (L234). -/
def pdbEnd (l : Line) : Bool := strip l = [] || strip l = "END".toList

/-- pdb (L232-238): up to and with the end of the frame. -/
def readPdb : List Line → Got
  | [] => ⟨[], [], none⟩
  | l :: r =>
      if pdbEnd l then ⟨[l], r, none⟩
      else
        let g := readPdb r
        ⟨l :: g.written, g.rest, g.stop⟩

/-- The other formats: nothing is read. -/
def readKind (k : Kind) (f : List Line) : Got :=
  match k with
  | .prop => readProp f
  | .extras => readExtras f
  | .xyz => readXyz f
  | .pdb => readPdb f
  | .other => ⟨[], f, none⟩

/-- The files of one output, one per system: read and written. -/
structure Group where
  kind : Kind
  stride : Nat
  ifile : Nat → List Line
  ofile : Nat → List Line

/-- One system (L205-213, L216-238); the lines go to the file of the ensemble `irep[isys]`. -/
def Group.sys (irep : Nat → Nat) (g : Group) (isys : Nat) : Group × Option Stop :=
  let r := readKind g.kind (g.ifile isys)
  ({ g with
      ifile := fun i => if i = isys then r.rest else g.ifile i
      ofile := fun e => if e = irep isys then g.ofile e ++ r.written else g.ofile e }, r.stop)

/-- `for isys in range(nsys)`: an exception ends it. -/
def Group.systems (irep : Nat → Nat) : List Nat → Group → Group × Option Stop
  | [], g => (g, none)
  | i :: is, g =>
      match g.sys irep i with
      | (g', some e) => (g', some e)
      | (g', none) => g'.systems irep is

/-- One output at one step (L204-213, L215-238): `step % stride == 0`. -/
def Group.step (nsys : Nat) (irep : Nat → Nat) (step : Nat) (g : Group) : Group × Option Stop :=
  if step % g.stride = 0 then g.systems irep (List.range nsys) else (g, none)

/-- All outputs at one step: first the property files, then the trajectories (L203, L214). -/
def groups (nsys : Nat) (irep : Nat → Nat) (step : Nat) : List Group → List Group × Option Stop
  | [] => ([], none)
  | g :: gs =>
      match g.step nsys irep step with
      | (g', some e) => (g' :: gs, some e)
      | (g', none) => let r := groups nsys irep step gs; (g' :: r.1, r.2)

/-- The state of the script: the outputs, `irep`, the step, and the lines of the list of exchanges
from the current one on, each with its step and the indices (as numbers; the text `% 10d` with the
columns ` % 5d` is not modelled). -/
structure St where
  outs : List Group
  irep : Nat → Nat
  step : Nat
  swaps : List (Nat × List Nat)

/-- The state before the loop (L192-199): `irep` counts up. -/
def start (outs : List Group) (swaps : List (Nat × List Nat)) : St := ⟨outs, id, 0, swaps⟩

/-- One round of the loop (L200-247). -/
def tick (nsys : Nat) (s : St) : St × Option Stop :=
  match groups nsys s.irep s.step s.outs with
  | (o, some e) => ({ s with outs := o }, some e)
  | (o, none) =>
      match s.swaps with
      | (l, idx) :: more =>
          if s.step = l then (⟨o, fun i => idx.getD i 0, s.step + 1, more⟩, none)
          else (⟨o, s.irep, s.step + 1, s.swaps⟩, none)
      | [] => (⟨o, s.irep, s.step + 1, []⟩, none)

/-- At most `n` rounds. -/
def rounds (nsys : Nat) : Nat → St → St × Option Stop
  | 0, s => (s, none)
  | n + 1, s =>
      match tick nsys s with
      | (s', some e) => (s', some e)
      | (s', none) => rounds nsys n s'

/-! ## File names -/

/-- The zero-padded number of a bead: the same width in both programs, the number of
digits of `nbeads` (both compute it with the same floating point logarithm, which is a digit short
for 1000; `outputs.py` L385-391,
`remdsort.py` L121-123). -/
def padBead (nbeads b : Nat) : Str :=
  let w := (showNat nbeads).length
  List.replicate (w - (showNat b).length) '0' ++ showNat b

/-- What `getkey` gives for the trajectories that have a file per bead in the simulation
(`outputs.py` L393-407). -/
def simPerBead : List Str :=
  ["positions", "velocities", "forces", "forces_spring", "Eforces", "extras", "extras_bias",
    "forces_sc", "momenta", "becx", "becy", "becz"].map String.toList

/-- Those that have one in the script (`remdsort.py` L109-115). -/
def sortPerBead : List Str :=
  ["positions", "velocities", "forces", "extras", "extras_bias"].map String.toList

/-- The end of the file name (`outputs.py` L413-416, L431-434; `remdsort.py` L146-149, L173-176). -/
def extension (format : Str) : Str :=
  '.' :: (if format = "ase".toList then "extxyz".toList else format)

/-- `getkey(self.what)[:6] == "extras"` (`outputs.py` L411, L430). -/
def isExtras (key : Str) : Bool := key.take 6 = "extras".toList

/-- The files the simulation opens for a trajectory (`TrajectoryOutput.open_stream`, `outputs.py`
L382-435). -/
def simFiles (name key format : Str) (ibead : Int) (nbeads : Nat) : List Str :=
  if simPerBead.contains key then
    ((List.range nbeads).filter fun b : Nat =>
        (decide (ibead < 0) && decide ((b : Int) % (-ibead) = 0)) || decide (ibead = b)).map fun b =>
      name ++ '_' :: padBead nbeads b ++ (if isExtras key then [] else extension format)
  else [name ++ (if isExtras key then [] else extension format)]

/-- The files the script opens for the same trajectory of the same system (`remdsort.py` L106-190).
Opening a file that does not exist ends the script. -/
def sortFiles (name key format : Str) (ibead : Int) (nbeads : Nat) : List Str :=
  if sortPerBead.contains key then
    ((List.range nbeads).filter fun b : Nat => decide (ibead < 0) || decide (ibead = b)).map fun b =>
      name ++ '_' :: padBead nbeads b
        ++ (if key = "extras".toList || key = "extras_bias".toList then [] else extension format)
  else [name ++ extension format]

/-- The name of the list of exchanges in the simulation (`OutputMaker.get_output`, `outputs.py`
L93-96). -/
def simSwapFile (prefixName swapfile : Str) : Str :=
  if prefixName ≠ [] then prefixName ++ '.' :: swapfile else swapfile

/-- The name the script opens (`remdsort.py` L192). -/
def sortSwapFile (prefixName swapfile : Str) : Str := prefixName ++ '.' :: swapfile

end Verif.Sort
