import Verif.FF.Committee
import Mathlib.Analysis.SpecialFunctions.Trigonometric.Inverse
import Mathlib.Analysis.Real.Sqrt

/-!
# Rotation matrices and grids of rotations

Models `ipi/utils/mathtools.py` lines 532-662 (rotation matrices, grids and random rotations) and the choice of the grid in
`ipi/engine/forcefields.py` lines 1717-1724 and of the random rotation, lines 1747-1750.  The roots of the Legendre polynomials
(`np.polynomial.legendre.legroots`) and the table of Lebedev grids (a file read by `np.load`) are arguments.
-/

namespace Verif.Rot3

open Real Committee

/-- A matrix as `np.array` of three rows. -/
def rows {K : Type} (a b c d e f g h i : K) : Fin 3 → Fin 3 → K := fun r s =>
  if r = 0 then (if s = 0 then a else if s = 1 then b else c)
  else if r = 1 then (if s = 0 then d else if s = 1 then e else f)
  else (if s = 0 then g else if s = 1 then h else i)

/-- `np.eye(3)`. -/
def one : Fin 3 → Fin 3 → ℝ := fun i j => if i = j then 1 else 0

/-- `quat2rot(q)` (532-556). -/
def quat2rot (q : Fin 4 → ℝ) : Fin 3 → Fin 3 → ℝ :=
  rows (1 - 2 * (q 2 ^ 2 + q 3 ^ 2)) (2 * (q 1 * q 2 - q 0 * q 3)) (2 * (q 1 * q 3 + q 0 * q 2))
       (2 * (q 1 * q 2 + q 0 * q 3)) (1 - 2 * (q 1 ^ 2 + q 3 ^ 2)) (2 * (q 2 * q 3 - q 0 * q 1))
       (2 * (q 1 * q 3 - q 0 * q 2)) (2 * (q 2 * q 3 + q 0 * q 1)) (1 - 2 * (q 1 ^ 2 + q 2 ^ 2))

/-- `R_z_theta`, `R_z_w` (573-579, 585). -/
noncomputable def rz (t : ℝ) : Fin 3 → Fin 3 → ℝ := rows (cos t) (-sin t) 0 (sin t) (cos t) 0 0 0 1

/-- `R_x_v` (582). -/
noncomputable def rx (v : ℝ) : Fin 3 → Fin 3 → ℝ := rows 1 0 0 0 (cos v) (-sin v) 0 (sin v) (cos v)

/-- `euler_zxz_to_matrix(theta, v, w)` (559-590): `R_z_w @ R_x_v @ R_z_theta`. -/
noncomputable def euler (theta v w : ℝ) : Fin 3 → Fin 3 → ℝ := mulM (mulM (rz w) (rx v)) (rz theta)

/-- The weight of a root (601-602) with the value `dP` of the derivative of the polynomial there. -/
noncomputable def legWeight (x dP : ℝ) : ℝ := 2 / ((1 - x ^ 2) * dP ^ 2)

/-- `get_rotation_quadrature_legendre(L)` (607-623).  `roots`: the roots of the polynomial and the values of its derivative there.
The angles, which are returned too and not used, are left out. -/
noncomputable def legendreGrid (L : ℕ) (roots : List (ℝ × ℝ)) : List ((Fin 3 → Fin 3 → ℝ) × ℝ) :=
  if L = 1 then [(one, 2)]
  else (List.range (2 * L - 1)).flatMap fun t : ℕ => (List.range (2 * L - 1)).flatMap fun w : ℕ => roots.map fun x =>
    (euler (2 * π * t / (2 * L - 1 : ℕ)) (arccos x.1) (2 * π * w / (2 * L - 1 : ℕ)), legWeight x.1 x.2)

/-- What may go wrong when the force field is made. -/
inductive Err
  | noLebedev (L : ℕ)
  | invalid
  deriving DecidableEq

/-- `get_rotation_quadrature_lebedev(L)` (626-640).  `table`: the file of grids, points as `(w, v, weight)`. -/
noncomputable def lebedevGrid (table : ℕ → Option (List (ℝ × ℝ × ℝ))) (L : ℕ) :
    Except Err (List ((Fin 3 → Fin 3 → ℝ) × ℝ)) :=
  match table L with
  | none => .error (.noLebedev L)
  | some q => .ok ((List.range L).flatMap fun t : ℕ => q.map fun p => (euler p.1 p.2.1 (2 * π * t / L), p.2.2))

/-- The choice of the grid (forcefields.py 1717-1724). -/
noncomputable def grid (mode : String) (table : ℕ → Option (List (ℝ × ℝ × ℝ))) (roots : ℕ → List (ℝ × ℝ)) (L : ℕ) :
    Except Err (List ((Fin 3 → Fin 3 → ℝ) × ℝ)) :=
  if mode = "lebedev" then lebedevGrid table L
  else if mode = "legendre" then .ok (legendreGrid L (roots L))
  else .error .invalid

/-- `random_rotation(prng, improper)` (643-656): `g` four normal numbers, `u` the uniform number, which is drawn only if `improper`. -/
noncomputable def randomRotation (g : Fin 4 → ℝ) (u : ℝ) (improper : Bool) : Fin 3 → Fin 3 → ℝ :=
  let n := sqrt (g 0 ^ 2 + g 1 ^ 2 + g 2 ^ 2 + g 3 ^ 2)
  let rot := quat2rot fun i => g i / n
  if improper ∧ u < 1 / 2 then fun i j => rot i j * (-1) else rot

/-- The random rotation of an evaluation (forcefields.py 1747-1750): always with `improper=True`. -/
noncomputable def frame (random : Bool) (g : Fin 4 → ℝ) (u : ℝ) : Fin 3 → Fin 3 → ℝ :=
  if random then randomRotation g u true else one

/-- The determinant. -/
def det (R : Fin 3 → Fin 3 → ℝ) : ℝ :=
  R 0 0 * (R 1 1 * R 2 2 - R 1 2 * R 2 1) - R 0 1 * (R 1 0 * R 2 2 - R 1 2 * R 2 0) + R 0 2 * (R 1 0 * R 2 1 - R 1 1 * R 2 0)

end Verif.Rot3
