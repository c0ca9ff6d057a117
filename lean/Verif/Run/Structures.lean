import Mathlib.Data.Matrix.Basic
import Mathlib.Data.Real.Basic
import Verif.Phys.Constraints
/-
Model of the exchange of structures between a script and a simulation (ipi/scripting/interactive.py): `get_structures` 116-150,
`set_structures` 152-168 and `thermalize_momenta` 170-193.

The coordinates of a bead are an element of a real vector space `V` (`reshape` and `flatten` are left out, and with them structures with the
wrong number of atoms). Unit factors are exact non-zero reals. Energies and forces that are attached to a structure are left out: `set_structures`
does not look at them. Iterating over `ase.Atoms` gives its atoms, which have no `positions`: an error.
-/
namespace Verif.Script
variable {V : Type} [AddCommGroup V] [Module ℝ V]

/-- Units of ASE in atomic units: `UnitMap["length"]["ase"]`, `UnitMap["momentum"]["ase"]` (ipi/utils/units.py:312, 326). -/
structure Factors where
  len : ℝ
  mom : ℝ

/-- `ase.Atoms`: positions, cell with the vectors in rows, momenta if they are among `arrays`. -/
structure Atoms (V : Type) where
  pos : V
  cell : Matrix (Fin 3) (Fin 3) ℝ
  mom : Option V

/-- Values that are passed to or from a script. -/
inductive Py (V : Type) where
  | atoms (a : Atoms V)
  | list (l : List (Py V))

/-- A system: positions and momenta of the beads, cell with the vectors in columns. -/
@[ext] structure Sys (V : Type) where
  q : List V
  p : List V
  h : Matrix (Fin 3) (Fin 3) ℝ

/-- `struc` for one bead (interactive.py:124-134). -/
noncomputable def toAtoms (u : Factors) (h : Matrix (Fin 3) (Fin 3) ℝ) (q p : V) : Atoms V :=
  { pos := (1 / u.len) • q, cell := (1 / u.len) • h.transpose, mom := some ((1 / u.mom) • p) }

/-- The loop over the beads, and the list left out for a single bead (123-146). -/
noncomputable def getSys (u : Factors) (s : Sys V) : Py V :=
  match List.zipWith (toAtoms u s.h) s.q s.p with
  | [a] => .atoms a
  | l => .list (l.map .atoms)

/-- `get_structures` (116-150). -/
noncomputable def getStructures (u : Factors) (ss : List (Sys V)) : Py V :=
  match ss.map (getSys u) with
  | [a] => a
  | l => .list l

inductive Err where
  | attribute
  | index
deriving DecidableEq

/-- `for b, struc in enumerate(structures)` (160-168) from bead `b` on; what was changed before an error stays changed. -/
def setBeads (u : Factors) (s : Sys V) (b : ℕ) : List (Py V) → Sys V × Option Err
  | [] => (s, none)
  | .list _ :: _ => (s, some .attribute)
  | .atoms a :: l =>
    if b < s.q.length then
      setBeads u
        { q := s.q.set b (u.len • a.pos)
          h := u.len • a.cell.transpose
          p := match a.mom with
            | some m => s.p.set b (u.mom • m)
            | none => s.p } (b + 1) l
    else (s, some .index)

/-- One pass of the loop over the systems (157-168). -/
def setSys (u : Factors) (s : Sys V) (v : Py V) : Sys V × Option Err :=
  if s.q.length = 1 then setBeads u s 0 [v]
  else
    match v with
    | .list l => setBeads u s 0 l
    | .atoms _ => (s, some .attribute)

/-- `for system, structures in zip(self.syslist, sys_structures)`. -/
def setAll (u : Factors) : List (Sys V) → List (Py V) → List (Sys V) × Option Err
  | s :: ss, v :: vs =>
    match setSys u s v with
    | (s', none) => (s' :: (setAll u ss vs).1, (setAll u ss vs).2)
    | (s', some e) => (s' :: ss, some e)
  | ss, _ => (ss, none)

/-- `set_structures` (152-168). -/
def setStructures (u : Factors) (ss : List (Sys V)) (v : Py V) : List (Sys V) × Option Err :=
  if ss.length = 1 then setAll u ss [v]
  else
    match v with
    | .list l => setAll u ss l
    | .atoms _ => (ss, some .attribute)

/-! ### momenta -/

open Verif.Pcon Finset

variable {n N : ℕ}

/-- `s.nm.pnm[:] = prng.gvec(...) * sqrt(dynm3) * sqrt(nbeads * temperature * kb)` (183-187), back in the basis of the beads. -/
noncomputable def freshMomenta (g : Par N) (T : ℝ) (ξ : Fin n → Fin N → Fin 3 → ℝ) : Fin n → Fin N → Fin 3 → ℝ :=
  g.toBeads (fun k a d => ξ k a d * √(g.dynm3 k a) * √(n * T))

/-- `thermalize_momenta` (170-193) for one system; `dyn` tells that the motion is `Dynamics`. -/
noncomputable def thermalize (g : Par N) (dyn com : Bool) (dofs : List (Fin N × Fin 3)) (T : ℝ) (ξ : Fin n → Fin N → Fin 3 → ℝ)
    (s : St n N) : St n N :=
  let s := { p := freshMomenta g T ξ, eens := s.eens + g.kin s.p - g.kin (freshMomenta g T ξ) }
  if dyn then g.pconstraints com dofs s else s

end Verif.Script
