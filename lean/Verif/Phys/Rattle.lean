import Mathlib.Analysis.SpecialFunctions.Trigonometric.Inverse
import Mathlib.Analysis.SpecialFunctions.Sqrt
import Mathlib.Data.List.Sort
import Mathlib.Data.List.Dedup
import Mathlib.LinearAlgebra.Matrix.NonsingularInverse
import Mathlib.LinearAlgebra.Matrix.ToLinearEquiv

/-!
# Holonomic constraints

Model of the constraints (`/repo/ipi/utils/constrtools.py`: `RigidBondConstraint` L204-262, `AngleConstraint` L265-327, `EckartConstraint` L330-445,
`ConstraintList` L448-538, `Gfunc` L135-143) and of the solver and the constrained steps (`/repo/ipi/engine/motion/constrained_dynamics.py`:
`ConstraintSolver` L237-336, `step_A` ... `step_Ag` L399-427, `step_Oc` L512-528), with exact real numbers.

The positions and momenta of a block of constraints are taken out of the arrays with `i3_unique`; here Jacobians have all the columns, zero for the atoms that
do not occur.  The solution of a linear system by a Cholesky decomposition is the inverse of the matrix; a singular matrix, for which the code raises an
exception, is excluded in the theorems.  The list of coupled constraints is one block with all their rows.
-/

namespace Verif.Rattle

open Finset Matrix

variable {ι κ : Type} [Fintype ι] [Fintype κ] [DecidableEq κ]

/-- `Gfunc`: `np.dot(dg, (dg / m3).T)`. -/
noncomputable def gram (m : ι → ℝ) (D : Matrix κ ι ℝ) : Matrix κ κ ℝ := D * (Matrix.of fun i k => D k i / m i)

/-- `b = np.dot(dg, p / m3)` (L278). -/
noncomputable def rate (m : ι → ℝ) (D : Matrix κ ι ℝ) (p : ι → ℝ) : κ → ℝ := D.mulVec fun i => p i / m i

/-- One block of `proj_cotangent` (L275-285). -/
noncomputable def projCot (m : ι → ℝ) (D : Matrix κ ι ℝ) (p : ι → ℝ) : ι → ℝ :=
  fun i => p i - (Dᵀ.mulVec ((gram m D)⁻¹.mulVec (rate m D p))) i

/-- A block of constraints that are treated together: their number, values and Jacobian. -/
structure Block (ι : Type) where
  c : ℕ
  g : (ι → ℝ) → Fin c → ℝ
  D : (ι → ℝ) → Matrix (Fin c) ι ℝ
  /-- `np.linalg.norm(g, ord=norm_order)` -/
  nrm : (Fin c → ℝ) → ℝ

/-- The state: positions, momenta, and the positions `qprev` at which the Jacobians are taken. -/
structure St (ι : Type) where
  q : ι → ℝ
  p : ι → ℝ
  base : ι → ℝ

/-- `proj_cotangent` (L264-286). -/
noncomputable def projCotangent (m : ι → ℝ) (bs : List (Block ι)) (s : St ι) : St ι :=
  { s with p := bs.foldl (fun p b => projCot m (b.D s.base) p) s.p }

/-- The displacement `np.dot(dg.T, dlambda)` (L317-321). -/
noncomputable def delta (m : ι → ℝ) (D : Matrix κ ι ℝ) (g : κ → ℝ) : ι → ℝ := Dᵀ.mulVec ((gram m D)⁻¹.mulVec g)

/-- The loop `for i in range(maxit)` of one block (L310-325), with `n` passes left, the next one being number `i`; the last value of the loop variable
is returned. -/
noncomputable def newton (m : ι → ℝ) (dt tol : ℝ) (g : (ι → ℝ) → κ → ℝ) (nrm : (κ → ℝ) → ℝ) (D : Matrix κ ι ℝ) :
    ℕ → ℕ → (ι → ℝ) × (ι → ℝ) → ((ι → ℝ) × (ι → ℝ)) × ℕ
  | 0, i, x => (x, i - 1)
  | n + 1, i, x =>
    open Classical in
    if nrm (g x.1) < tol then (x, i)
    else newton m dt tol g nrm D n (i + 1)
      (fun j => x.1 j - delta m D (g x.1) j / m j, fun j => x.2 j - delta m D (g x.1) j / dt)

/-- `if i == self.maxit: warning(...)` (L326-330). -/
def warned (maxit last : ℕ) : Bool := last == maxit

/-- The loop over the blocks of `proj_manifold` (L299-330). -/
noncomputable def manifold (m : ι → ℝ) (dt tol : ℝ) (maxit : ℕ) (base : ι → ℝ) : List (Block ι) → (ι → ℝ) × (ι → ℝ) → (ι → ℝ) × (ι → ℝ)
  | [], x => x
  | b :: bs, x => manifold m dt tol maxit base bs (newton m dt tol b.g b.nrm (b.D base) maxit 0 x).1

/-- `proj_manifold` (L287-336). -/
noncomputable def projManifold (m : ι → ℝ) (dt tol : ℝ) (maxit : ℕ) (bs : List (Block ι)) (s : St ι) : St ι :=
  let x := manifold m dt tol maxit s.base bs (s.q, s.p)
  { q := x.1, p := x.2, base := x.1 }

/-- `step_A` (L399-401). -/
noncomputable def stepA (m : ι → ℝ) (dt : ℝ) (s : St ι) : St ι := { s with q := fun i => s.q i + s.p i / m i * dt }

/-- The loop of `step_Ag` (L424-427). -/
noncomputable def geodesic (m : ι → ℝ) (dt tol : ℝ) (maxit : ℕ) (bs : List (Block ι)) : ℕ → St ι → St ι
  | 0, s => s
  | n + 1, s => geodesic m dt tol maxit bs n (projCotangent m bs (projManifold m dt tol maxit bs (stepA m dt s)))

/-- `step_Ag` (L413-427). -/
noncomputable def stepAg (m : ι → ℝ) (dt tol : ℝ) (maxit nsteps : ℕ) (bs : List (Block ι)) (s : St ι) : St ι :=
  geodesic m dt tol maxit bs nsteps (projCotangent m bs s)

/-- Kinetic energy. -/
noncomputable def kin (m p : ι → ℝ) : ℝ := 1 / 2 * ∑ i, p i * (p i / m i)

/-- One pass of `step_Oc` after the step of the thermostat (L519-528): the state and `eens`. -/
noncomputable def stepOc (m : ι → ℝ) (bs : List (Block ι)) (x : St ι × ℝ) : St ι × ℝ :=
  let s := projCotangent m bs x.1
  (s, x.2 + kin m x.1.p - kin m s.p)

/-- A kick followed by the projection, `step_Bc` (L403-411); `eens` is not touched. -/
noncomputable def stepBc (m : ι → ℝ) (bs : List (Block ι)) (f : ι → ℝ) (dt : ℝ) (x : St ι × ℝ) : St ι × ℝ :=
  (projCotangent m bs { x.1 with p := fun i => x.1.p i + f i * dt }, x.2)

/-! ## The constraints -/

variable {N : ℕ}

/-- Scalar product in three dimensions. -/
def dot (u v : Fin 3 → ℝ) : ℝ := ∑ k, u k * v k

/-- The vector from atom `j` to atom `i`. -/
def diff (q : Fin N × Fin 3 → ℝ) (i j : Fin N) : Fin 3 → ℝ := fun k => q (i, k) - q (j, k)

/-- `gfunc` of a bond (L229-247). -/
def bondG (i j : Fin N) (d : ℝ) (q : Fin N × Fin 3 → ℝ) : ℝ := dot (diff q i j) (diff q i j) - d ^ 2

/-- A row of `Dgfunc` of bonds (L249-262); the second assignment wins if the atoms are the same. -/
def bondRow (i j : Fin N) (q : Fin N × Fin 3 → ℝ) (x : Fin N × Fin 3) : ℝ :=
  if x.1 = j then -2 * diff q i j x.2 else if x.1 = i then 2 * diff q i j x.2 else 0

/-- The length used if none is given (L222-227): `sqrt(g)` for a target of zero. -/
noncomputable def bondValue (i j : Fin N) (q : Fin N × Fin 3 → ℝ) : ℝ := √(bondG i j 0 q)

/-- `gfunc` of an angle at atom `c` (L289-306). -/
noncomputable def angleG (c a b : Fin N) (θ : ℝ) (q : Fin N × Fin 3 → ℝ) : ℝ :=
  dot (diff q a c) (diff q b c) / √(dot (diff q a c) (diff q a c)) / √(dot (diff q b c) (diff q b c)) - Real.cos θ

/-- The part of a row for one of the outer atoms, `(q2 - ct * q1) / r1` (L313-325). -/
noncomputable def anglePart (u v : Fin 3 → ℝ) : Fin 3 → ℝ := fun k =>
  (v k / √(dot v v) - (∑ l, u l / √(dot u u) * (v l / √(dot v v))) * (u k / √(dot u u))) / √(dot u u)

/-- A row of `Dgfunc` of angles (L308-327); the assignments are made in the order second, third, first atom. -/
noncomputable def angleRow (c a b : Fin N) (q : Fin N × Fin 3 → ℝ) (x : Fin N × Fin 3) : ℝ :=
  if x.1 = c then -(anglePart (diff q a c) (diff q b c) x.2 + anglePart (diff q b c) (diff q a c) x.2)
  else if x.1 = b then anglePart (diff q b c) (diff q a c) x.2
  else if x.1 = a then anglePart (diff q a c) (diff q b c) x.2 else 0

/-- The angle used if none is given (L280-287): `arccos(g)` for a target of `pi / 2`. -/
noncomputable def angleValue (c a b : Fin N) (q : Fin N × Fin 3 → ℝ) : ℝ := Real.arccos (angleG c a b (Real.pi / 2) q)

/-- `mtot` (L368-373). -/
def mtot (M : Fin N → ℝ) : ℝ := ∑ a, M a

/-- `qref_rel` (L375-395). -/
noncomputable def refRel (M : Fin N → ℝ) (r : Fin N × Fin 3 → ℝ) (x : Fin N × Fin 3) : ℝ := r x - (∑ a, r (a, x.2) * M a) / mtot M

/-- `gfunc` of the Eckart conditions (L407-419) for the atoms of the molecule, `r` being `qref`. -/
noncomputable def eckartG (M : Fin N → ℝ) (r q : Fin N × Fin 3 → ℝ) : Fin 6 → ℝ
  | 0 => (∑ a, M a * (q (a, 0) - r (a, 0))) / mtot M
  | 1 => (∑ a, M a * (q (a, 1) - r (a, 1))) / mtot M
  | 2 => (∑ a, M a * (q (a, 2) - r (a, 2))) / mtot M
  | 3 => (∑ a, (refRel M r (a, 1) * M a * (q (a, 2) - r (a, 2)) - refRel M r (a, 2) * M a * (q (a, 1) - r (a, 1)))) / mtot M
  | 4 => (∑ a, (refRel M r (a, 2) * M a * (q (a, 0) - r (a, 0)) - refRel M r (a, 0) * M a * (q (a, 2) - r (a, 2)))) / mtot M
  | 5 => (∑ a, (refRel M r (a, 0) * M a * (q (a, 1) - r (a, 1)) - refRel M r (a, 1) * M a * (q (a, 0) - r (a, 0)))) / mtot M

/-- `Dgfunc` of the Eckart conditions (L421-442). -/
noncomputable def eckartD (M : Fin N → ℝ) (r : Fin N × Fin 3 → ℝ) : Matrix (Fin 6) (Fin N × Fin 3) ℝ
  | 0, (a, 0) => M a / mtot M
  | 1, (a, 1) => M a / mtot M
  | 2, (a, 2) => M a / mtot M
  | 3, (a, 1) => -(refRel M r (a, 2) * M a) / mtot M
  | 3, (a, 2) => refRel M r (a, 1) * M a / mtot M
  | 4, (a, 0) => refRel M r (a, 2) * M a / mtot M
  | 4, (a, 2) => -(refRel M r (a, 0) * M a) / mtot M
  | 5, (a, 0) => -(refRel M r (a, 1) * M a) / mtot M
  | 5, (a, 1) => refRel M r (a, 0) * M a / mtot M
  | _, _ => 0

/-- `np.unique`. -/
def npUnique (l : List ℕ) : List ℕ := l.dedup.insertionSort (· ≤ ·)

/-- The check of `EckartConstraint.__init__` for repeated atoms (L344-346). -/
def eckartAccepts (l : List ℕ) : Bool := l == npUnique l

/-! ## The order of the norm in checkpoints -/

/-- `norm_order` of the solver: an integer or `inf` (constrained_dynamics.py L146-161). -/
inductive NormOrder where
  | int (k : ℤ)
  | inf
deriving DecidableEq

def solverOrder (k : ℤ) : NormOrder := if k = -1 then .inf else .int k

/-- What is read back from a checkpoint: `int(str(norm_order))` (inputs/motion/constrained_dynamics.py L49-66); `int("inf")` raises an exception. -/
def readBack : NormOrder → Option ℤ
  | .int k => some k
  | .inf => none

end Verif.Rattle
