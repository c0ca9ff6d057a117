import Verif.Io.TrajUnits
import Verif.Phys.Contract

/-!
Model of `contract_trajectory` (tools/py/contract-trajectory.py:31-135).

* One trajectory per bead, already cut into frames by `iter_file_name_raw`: comment, cell, numbers.  Numbers are exact; the rounding of the
  formats is left out, and so are the names of the atoms (those of the first bead).
* At least one input file (`nargs="+"` of the command line).
* `print_file` is given `os.path.splitext(name)[-1]`, that is `.xyz` or `.pdb` with the dot, which is not equal to `"pdb"`; `auto_units` is
  called without a mode.  Both are therefore in the mode `other`.  No `key` is given to `print_file` and its default is the empty string.
-/

namespace Verif.ContractTraj

open Verif.Text Verif.Units Verif.TrajUnits Verif.Contract Verif.Nm

/-- A frame as read by `iter_file_name_raw`. -/
structure Frame where
  comment : Str
  cell : Fin 9 → ℝ
  data : List ℝ

/-- A frame as written: title, numbers of the cell, numbers of the atoms. -/
structure Written where
  title : Str
  cell : Fin 9 → ℝ
  data : List ℝ

inductive Fail where
  | units
  | cells
  | atoms
deriving DecidableEq

/-- `np.vstack([frame["data"] for frame in frames])` (L101) -/
def stack {k : ℕ} (fr : Fin (k + 1) → Frame) (m : ℕ) : Arr (k + 1) m := fun b c => (fr b).data.getD c 0

open Classical in
/-- The loop body (L75-121): the new `cell_units_out` and one written frame per new bead.  The cell is handed over as it was read (L96). -/
noncomputable def step {k : ℕ} (nNew : ℕ) (cuIn cuOut : Str) (fr : Fin (k + 1) → Frame) : Except Fail (Str × (Fin nNew → Written)) :=
  match autoUnits .other (fr 0).comment kAuto kAuto cuIn with
  | .error _ => .error .units
  | .ok (dim, units, cu) =>
    let out := if cuOut = kAuto then cu else cuOut
    let m := 3 * ((fr 0).data.length / 3)
    if ∃ b, (fr b).cell ≠ (fr 0).cell then .error .cells
    else if ∃ b, (fr b).data.length ≠ m then .error .atoms
    else match toInternal dim units 1, printFile .other [] [] dim units out with
      | .ok f, .ok p => .ok (out, fun a => ⟨p.title, fun i => (fr 0).cell i * (p.cellConv : ℝ),
          List.ofFn fun c : Fin m => b1tob2 nNew [] (fun b c => stack fr m b c * (f : ℝ)) a c * (p.atomsConv : ℝ)⟩)
      | _, _ => .error .units

/-- The loop over the frames (L63-126): what has been written and the exception, if any. -/
noncomputable def loop {k : ℕ} (nNew : ℕ) (cuIn : Str) (t : Fin (k + 1) → List Frame) : ℕ → ℕ → Str → List (Fin nNew → Written) × Option Fail
  | 0, _, _ => ([], none)
  | fuel + 1, i, cuOut =>
    if h : ∀ b, i < (t b).length then
      match step nNew cuIn cuOut fun b => (t b)[i]'(h b) with
      | .error e => ([], some e)
      | .ok (out, w) => (w :: (loop nNew cuIn t fuel (i + 1) out).1, (loop nNew cuIn t fuel (i + 1) out).2)
    else ([], none)

noncomputable def contract {k : ℕ} (nNew : ℕ) (cuIn cuOut : Str) (t : Fin (k + 1) → List Frame) : List (Fin nNew → Written) × Option Fail :=
  loop nNew cuIn t (t 0).length 0 cuOut

end Verif.ContractTraj
