import Mathlib.Data.List.Sort
import Mathlib.Data.Real.Basic
import Mathlib.Analysis.SpecialFunctions.Trigonometric.Basic

/-!
# Instantons with fixed atoms

Model of `ipi/utils/instools.py` (`Fix`, L308-499), of the way `ipi/engine/motion/instanton.py` uses it (`initial_geo` L1059-1083, `get_active_array` in
`pre_step` L1242, the new positions L1595-1596, `update_hessian` L1403-1439, the final Hessian of the friction L1160-1162) and of the mass-scaled path
(`ms_pathway` L297-305).

Arrays are lists of rows; the entries are real numbers or of any type. Numpy's errors are values.
-/

namespace Verif.InstFix

/-- What ends a calculation: the soft exit, and the exceptions IndexError, ValueError and AttributeError. -/
inductive Err | exit | index | value | attribute
  deriving DecidableEq, Repr

/-- The atoms that are kept fixed, from the degrees of freedom of the input (instools.py L318-328): if their number is divisible by three the atoms they
belong to, sorted and without repetitions (`np.unique`). -/
def fixedAtoms (dofs : List ℕ) : Except Err (List ℕ) :=
  if 0 < dofs.length then
    if dofs.length % 3 = 0 then .ok ((dofs.map (· / 3)).dedup.insertionSort (· ≤ ·))
    else .error .exit
  else .ok dofs

/-- The degrees of freedom that `fixatoms` of the input stands for (ipi/inputs/motion/motion.py L346-356): three for each atom, sorted. -/
def dofsOf (atoms : List ℕ) : List ℕ := (atoms.flatMap fun a => [a * 3, a * 3 + 1, a * 3 + 2]).insertionSort (· ≤ ·)

/-- `mask1` (instools.py L333-336): the active degrees of freedom of one bead. The entries `3 * fixatoms + i` for `i` in 0, 1, 2 are left out; simplified: the
fixed atoms exist, otherwise numpy raises an IndexError here. -/
def mask1 (natoms : ℕ) (fixed : List ℕ) : List ℕ := (List.range (3 * natoms)).filter fun i => decide (i / 3 ∉ fixed)

/-- `mask2` (instools.py L338-339): the same for all the beads one after the other (`np.tile`). -/
def mask2 (natoms nbeads : ℕ) (fixed : List ℕ) : List ℕ :=
  (List.range (3 * natoms * nbeads)).filter fun i => decide (i % (3 * natoms) / 3 ∉ fixed)

/-- `vector[mask]` of numpy with a list of indices. -/
def take {α : Type} (mask : List ℕ) (v : List α) : Except Err (List α) :=
  if mask.all fun i => decide (i < v.length) then .ok (mask.filterMap fun i => v[i]?) else .error .index

/-- `full = np.zeros(n); full[mask] = vals` of numpy; a list of one value is used for every place. -/
def put (n : ℕ) (mask : List ℕ) (vals : List ℝ) : Except Err (List ℝ) :=
  if vals.length = mask.length then
    .ok ((List.range n).map fun i => if mask.idxOf i < mask.length then vals.getD (mask.idxOf i) 0 else 0)
  else if vals.length = 1 then .ok ((List.range n).map fun i => if i ∈ mask then vals.getD 0 0 else 0)
  else .error .value

/-- The type of an array by its name (`get_active_array`, instools.py L368-387). The third test, `key == "hessian" or "eta0"`, is true for every name. -/
def keyType (key : String) : Int :=
  if key = "old_u" ∨ key = "big_step" ∨ key = "delta" ∨ key = "energy_shift" ∨ key = "initial_hessian" then -1
  else if key = "old_x" ∨ key = "old_f" ∨ key = "d" then 1
  else if key = "hessian" ∨ true then 2
  else if key = "qlist" ∨ key = "glist" then 3
  else 4

/-- `get_active_vector` (instools.py L464-499) for the types of arrays of two dimensions: positions, forces and directions (1), Hessians (2), the lists of the
lbfgs optimiser (3). Simplified: the test of the columns is made for each row. -/
def active {α : Type} (natoms nbeads : ℕ) (fixed : List ℕ) (t : Int) (v : List (List α)) : Except Err (List (List α)) :=
  if fixed.length = 0 ∨ t = -1 then .ok v
  else if t = 1 then v.mapM (take (mask1 natoms fixed))
  else if t = 2 then (take (mask1 natoms fixed) v).bind fun rows => rows.mapM (take (mask2 natoms nbeads fixed))
  else if t = 3 then v.mapM (take (mask2 natoms nbeads fixed))
  else .error .value

/-- The rows of `get_full_vector` for a Hessian (instools.py L422-427): the row of the active degree of freedom number `ii` comes from row `ii`, the others are
zero. -/
def fullRows (natoms nbeads : ℕ) (fixed : List ℕ) (v : List (List ℝ)) : Except Err (List (List ℝ)) :=
  (List.range (3 * natoms)).mapM fun i =>
    let ii := (mask1 natoms fixed).idxOf i
    if ii < (mask1 natoms fixed).length then
      match v[ii]? with
      | some row => put (3 * natoms * nbeads) (mask2 natoms nbeads fixed) row
      | none => .error .index
    else .ok (List.replicate (3 * natoms * nbeads) 0)

/-- `get_full_vector` (instools.py L393-462) for the types of arrays of two dimensions. Type 3 refers to `self.fix`, which does not exist. Simplified: an
array with a number of rows different from the number of beads is refused; numpy would repeat a single row. -/
def full (natoms nbeads : ℕ) (fixed : List ℕ) (t : Int) (v : List (List ℝ)) : Except Err (List (List ℝ)) :=
  if fixed.length = 0 ∨ t = -1 then .ok v
  else if t = 1 then if v.length = nbeads then v.mapM (put (3 * natoms) (mask1 natoms fixed)) else .error .value
  else if t = 2 then fullRows natoms nbeads fixed v
  else if t = 3 then .error .attribute
  else .error .value

/-- The positions after a step (instanton.py L1595-1596, L1643-1644, L1779-1780): `old_x + get_full_vector(d_x, 1)`. -/
def newPos (natoms nbeads : ℕ) (fixed : List ℕ) (oldx : List (List ℝ)) (dx : List (List ℝ)) : Except Err (List (List ℝ)) :=
  (full natoms nbeads fixed 1 dx).map fun d => List.zipWith (List.zipWith (· + ·)) oldx d

/-- The counters of the loops of `get_full_vector` for the friction (type 4, instools.py L435-449), and the pairs of places and sources of the assignments. -/
structure Loops where
  ii : ℕ
  jj : ℕ
  kk : ℕ
  out : List ((ℕ × ℕ × ℕ) × (ℕ × ℕ × ℕ))

/-- `for k in mask` (L441-445). -/
def loopK (i j : ℕ) (mask : List ℕ) (s : Loops) : Loops :=
  mask.foldl (fun s k => ⟨s.ii, s.jj, s.kk + 1, s.out ++ [((i, j, k), (s.ii, s.jj, s.kk))]⟩) s

/-- `for j in mask` (L440-446): `kk` is not reset. -/
def loopJ (i : ℕ) (mask all : List ℕ) (s : Loops) : Loops :=
  mask.foldl (fun s j => let s' := loopK i j all s; ⟨s'.ii, s'.jj + 1, s'.kk, s'.out⟩) s

/-- `for i in mask` (L439-447): `jj` and `kk` are not reset. -/
def loopI (mask all : List ℕ) (s : Loops) : Loops :=
  mask.foldl (fun s i => let s' := loopJ i all all s; ⟨s'.ii + 1, s'.jj, s'.kk, s'.out⟩) s

/-- The assignments of the loops, in their order. -/
def assignments (mask : List ℕ) : List ((ℕ × ℕ × ℕ) × (ℕ × ℕ × ℕ)) := (loopI mask mask ⟨0, 0, 0, []⟩).out

/-- `get_full_vector(friction_hessian, 4)` for one bead (instools.py L432-449, called at instanton.py L1160 and L1433 with an array that is already full, of
`3 * natoms` entries in each dimension). -/
def fullFric (natoms : ℕ) (fixed : List ℕ) (v : ℕ → ℕ → ℕ → ℝ) : Except Err (ℕ × ℕ × ℕ → ℝ) :=
  if fixed.length = 0 then .ok fun p => v p.1 p.2.1 p.2.2
  else
    let as := assignments (mask1 natoms fixed)
    if as.all fun a => decide (a.2.1 < 3 * natoms) && decide (a.2.2.1 < 3 * natoms) && decide (a.2.2.2 < 3 * natoms) then
      .ok (as.foldl (fun h a => Function.update h a.1 (v a.2.1 a.2.2.1 a.2.2.2)) fun _ => 0)
    else .error .index

/-- The first path of an instanton (`initial_geo`, instanton.py L1078-1083): bead `i` of `n` is moved by `delta * cos(i * pi / (n - 1))` along the vector. -/
noncomputable def stretched (n : ℕ) (delta : ℝ) (q v : ℕ → ℝ) (i c : ℕ) : ℝ := q c + delta * Real.cos (i * Real.pi / ((n : ℝ) - 1)) * v c

/-- The positions of the atoms that the sum rules are applied to (instanton.py L985, L1529-1535): those of `Fix`, copied in `bind` (instools.py L341-342) and
never changed afterwards, while a step moves the beads. -/
structure Optimiser (Q : Type) where
  q : Q
  fixq : Q

/-- `bind` (instanton.py L973-985). -/
def bind {Q : Type} (q : Q) : Optimiser Q := ⟨q, q⟩

/-- A step: the beads move (`update_pos_for`, instanton.py L1191-1197). -/
def move {Q : Type} (s : Optimiser Q) (q : Q) : Optimiser Q := { s with q := q }

/-- The mass-scaled path (`ms_pathway`, instools.py L297-305): distances between neighbours are collected in a list, bead `i` gets the sum of the first `i`. -/
noncomputable def msPath (d : ℕ → ℝ) (i : ℕ) : ℝ := (((List.range i).map d).take i).sum

end Verif.InstFix
