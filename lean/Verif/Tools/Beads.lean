import Verif.Phys.Estim

/-!
# Small tools for trajectories of beads

Models of `/repo/tools/py/mux-positions.py`, `fixcom.py`, `posforce2kinetic.py` and `kinetic2tag.py`, and
of `Trajectories.get_akcv_od` (`/repo/ipi/engine/properties.py`). The readers and writers of frames are
modelled elsewhere; here a trajectory is a list of frames. Numbers are exact.
-/

namespace Verif.BeadTools

open Finset Verif.Estim

/-! ## `mux-positions.py` -/

/-- One pass of the loop over the trajectories (`main` L60-93): what is written, and what is left of the
trajectories, or `none` when one of them has ended (`StopIteration`). Without wrapping. -/
def muxFrame {α : Type} (out : Bool) : List (List α) → List α × Option (List (List α))
  | [] => ([], some [])
  | t :: ts =>
    match t with
    | [] => ([], none)
    | x :: xs =>
      let r := muxFrame out ts
      (if out then x :: r.1 else r.1, r.2.map (xs :: ·))

/-- Whether a frame is written (L57). -/
def chosen (start : ℤ) (stride i : ℕ) : Bool := decide (start ≤ i) && decide (i % stride = 0)

/-- The loop over frames (L52-99): the frames written and the number of frames saved that is printed. -/
def mux {α : Type} (start stop : ℤ) (stride : ℕ) : ℕ → ℕ → List (List α) → List α × ℕ
  | 0, _, _ => ([], 0)
  | fuel + 1, i, ts =>
    if -1 < stop ∧ stop ≤ i then ([], 0)
    else
      let r := muxFrame (chosen start stride i) ts
      match r.2 with
      | none => (r.1, 0)
      | some ts' =>
        let s := mux start stop stride fuel (i + 1) ts'
        (r.1 ++ s.1, s.2 + if chosen start stride i then 1 else 0)

/-- Exceptions. -/
inductive Err
  | typeError
deriving DecidableEq, Repr

/-- A number of Python as the result of `/`: the division of integers gives a float. -/
inductive Num
  | int (n : ℤ)
  | float (x : ℚ)

/-- `a / b` for integers (Python 3). -/
def trueDiv (a b : ℤ) : Num := .float (a / b)

/-- Using a number as a dimension of an array; floats are refused, whole or not. -/
def asDim : Num → Except Err ℤ
  | .int n => .ok n
  | .float _ => .error .typeError

/-- The first lines of `wrap_positions` (L112-114): the shape is set to `(len(pos) / 3, 3)`. -/
def wrapShape (natoms : ℕ) : Except Err ℤ := asDim (trueDiv (3 * natoms) 3)

/-- The first lines of `unwrap_positions` (L123-131): nothing is done for the first frame. -/
def unwrapShape (first : Bool) (natoms : ℕ) : Except Err (Option ℤ) :=
  if first then .ok none else do return some (← asDim (trueDiv (3 * natoms) 3))

/-- The number of atoms in `kinetic2tag.py` (L42), used as a dimension (L43-46). -/
def tagAtoms (len : ℕ) : Except Err ℤ := asDim (trueDiv len 3)

/-! ## `fixcom.py` -/

/-- The centre of mass that is taken off (`main` L48-72): the mean of the beads and of their masses first. -/
noncomputable def com {P N : ℕ} (m : Fin P → Fin N → ℝ) (q : Fin P → Fin N → Fin 3 → ℝ) (d : Fin 3) : ℝ :=
  (∑ a, (∑ b, m b a) / P * ((∑ b, q b a d) / P)) / ∑ a, (∑ b, m b a) / P

/-- The positions written (L73-76). -/
noncomputable def fixcom {P N : ℕ} (m : Fin P → Fin N → ℝ) (q : Fin P → Fin N → Fin 3 → ℝ) :
    Fin P → Fin N → Fin 3 → ℝ := fun b a d => q b a d - com m q d

/-! ## Kinetic energy tensors -/

section
variable {n N : ℕ}

/-- What the loop of `posforce2kinetic.py` adds up for one bead (L99-112), in the order xx, yy, zz, xy, xz,
yz. -/
noncomputable def kcvTerm (q f : Conf n N) (b : Fin (n + 1)) (a : Fin N) (c : Fin 6) : ℝ :=
  let dq := fun d => q (b, a, d) - qc q a d
  if c.1 < 3 then dq (voigt c).1 * f (b, a, (voigt c).1)
  else dq (voigt c).1 * f (b, a, (voigt c).2) + dq (voigt c).2 * f (b, a, (voigt c).1)

/-- The tensor written by `posforce2kinetic.py` (L98-115). -/
noncomputable def kcv (kB T : ℝ) (q f : Conf n N) (a : Fin N) (c : Fin 6) : ℝ :=
  let s := (∑ b, kcvTerm q f b a c) * (-0.5 / ((n + 1 : ℕ) : ℝ))
  if c.1 < 3 then s + 0.5 * kB * T else s * 0.5

/-- `Trajectories.get_akcv_od` (properties.py L3178-L3199): xy, xz, yz. -/
noncomputable def akcvOd (q f : Conf n N) (a : Fin N) (c : Fin 3) : ℝ :=
  (∑ b, ((q (b, a, ![0, 0, 1] c) - qc q a (![0, 0, 1] c)) * f (b, a, ![1, 2, 2] c)
      + (q (b, a, ![1, 2, 2] c) - qc q a (![1, 2, 2] c)) * f (b, a, ![0, 0, 1] c)))
    * 0.5 * (-0.5 / ((n + 1 : ℕ) : ℝ))

end

end Verif.BeadTools
