import Verif.Phys.Neb
import Mathlib.Analysis.InnerProductSpace.PiL2

/-!
# The string method for minimum energy paths

Model of `ipi/engine/motion/stringmep.py`: the parameter of the path and the resampling (`spline_resample` L1167-1222, `spline_derv` L1225-1270), the projected
force (`StringGradientMapper` L78-104), the forces of the first step (`step` L1120-1153), and the names of attributes that `bind` reads (`StringMover.bind`
L350-432, `StringClimbGrMapper.bind` L181-206). The beads are the positions of the active degrees of freedom.
-/

namespace Verif.StringMep

open Finset

variable {ι : Type} [Fintype ι]

/-- The length of the broken line up to bead `i` (L1185-1193). -/
noncomputable def len (q : ℕ → EuclideanSpace ℝ ι) (i : ℕ) : ℝ := ∑ j ∈ range i, ‖q (j + 1) - q j‖

/-- The parameter of the path (L1195-1196): `t /= t[-1]`, for `n + 2` beads, of which `n + 1` is the number of the last. -/
noncomputable def param (n : ℕ) (q : ℕ → EuclideanSpace ℝ ι) (i : ℕ) : ℝ := len q i / len q (n + 1)

/-- The new values of the parameter (L1203): `np.arange(nbeads) / (nbeads - 1)`. -/
noncomputable def newT (n i : ℕ) : ℝ := i / ((n : ℝ) + 1)

/-- An interpolation: from the values of the parameter at the beads and the values of a coordinate to a function. It stands for scipy's
`make_interp_spline(t, component, bc_type="natural")` and `splev`. -/
abbrev Interp := (ℕ → ℝ) → (ℕ → ℝ) → ℝ → ℝ

/-- `spline_resample` (L1167-1222): each coordinate is interpolated and evaluated at the new values. -/
noncomputable def resample (S : Interp) (n : ℕ) (q : ℕ → EuclideanSpace ℝ ι) (i : ℕ) : EuclideanSpace ℝ ι :=
  WithLp.toLp 2 fun c => S (param n q) (fun j => q j c) (newT n i)

/-- The force across the path (L96-98). -/
noncomputable def across (tangent f : EuclideanSpace ℝ ι) : EuclideanSpace ℝ ι := f - inner ℝ f tangent • tangent

/-- The forces at the beginning (`step`, L1123-1144): the beads are resampled, but the forces are those of `stringgm.dforces`, whose beads were cloned in `bind`
and are not resampled; they are handed to the mapper as the forces at the new positions. The pair of positions and forces is returned. -/
noncomputable def firstStep (S : Interp) (n : ℕ) (force : EuclideanSpace ℝ ι → EuclideanSpace ℝ ι) (q : ℕ → EuclideanSpace ℝ ι) (i : ℕ) :
    EuclideanSpace ℝ ι × EuclideanSpace ℝ ι := (resample S n q i, force (q i))

/-- The natural cubic spline through three points, in the usual form with the second derivatives at the knots, which are zero at the ends and `M` in the
middle; it is what scipy computes for three beads. -/
noncomputable def natural3 : Interp := fun t v s =>
  let h0 := t 1 - t 0
  let h1 := t 2 - t 1
  let M := 3 * ((v 2 - v 1) / h1 - (v 1 - v 0) / h0) / (h0 + h1)
  if s ≤ t 1 then M * (s - t 0) ^ 3 / (6 * h0) + v 0 / h0 * (t 1 - s) + (v 1 / h0 - M * h0 / 6) * (s - t 0)
  else M * (t 2 - s) ^ 3 / (6 * h1) + (v 1 / h1 - M * h1 / 6) * (t 2 - s) + v 2 / h1 * (s - t 1)

/-! ### Binding -/

/-- The attributes of a `StringMover` when the mappers are bound: those of `Motion` (ipi/engine/motion/motion.py L44-55, L76-83) and its own (L298-348). -/
def moverAttrs : List String :=
  ["_dt", "dt", "fixcom", "fixatoms_dof", "beads", "cell", "forces", "prng", "nm", "enstype", "finished", "exit_status", "exit_message", "ensemble",
   "output_maker", "tolerances", "mode", "big_step", "old_x", "stringpot", "stringgrad", "d", "full_f", "full_v", "corrections", "qlist", "glist", "scale",
   "tr_trm", "endpoints", "use_climb", "cl_indx", "stage", "hessian", "v", "a", "N_dn", "N_up", "dt_fire", "dtmax", "stringgm", "climbgm"]

/-- An access to an attribute: by which object it is read or by which one it was set before. -/
inductive Access | mover (name : String) | mapper (name : String) | sets (name : String)

/-- The accesses of `StringClimbGrMapper.bind` (L181-206) in their order; `self.ffixatoms_mask` is only read with fixed degrees of freedom. -/
def climbBind (fixed : Bool) : List Access :=
  [.mover "fixatoms_dof", .sets "fixatoms_dof", .mover "beads", .sets "fixatoms_mask", .mover "fixatoms_dof"]
    ++ (if fixed then [.mapper "ffixatoms_mask", .mover "fixatoms_dof"] else [])
    ++ [.mover "beads", .sets "rbeads", .mover "cell", .sets "rcell", .mover "beads", .mover "fixatoms", .sets "q_prev", .mover "beads", .mover "fixatoms",
        .sets "q_next", .mover "forces", .sets "rforces"]

/-- Running accesses: the first attribute that does not exist raises AttributeError with its name. -/
def run : List Access → List String → Except String Unit
  | [], _ => .ok ()
  | .mover a :: l, own => if a ∈ moverAttrs then run l own else .error a
  | .mapper a :: l, own => if a ∈ own then run l own else .error a
  | .sets a :: l, own => run l (a :: own)

end Verif.StringMep
