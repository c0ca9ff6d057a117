import Verif.FF.FortranPes

/-!
# The committee of the Fortran driver

Model of the potentials `qtip4pf-c-1`, `qtip4pf-c-2`, `qtip4pf-c-json` and their versions `-delta` in `compute_potential` of
`/repo/drivers/f90/driver.f90` (L915-1021), and of the way in which the virial travels to i-PI: in the message (L722-739) and in
the extra string (L989, L1004).  The water potential itself is a parameter, and so are the neighbour lists (C175).  Numbers
in the extra string are rounded to eight decimals, which is left out.
-/

namespace Verif.F90

/-- `LJ_getall` (`LJ.f90` L141-208) called with the results `s` of what has been computed before. -/
noncomputable def addLj (sigma eps rc : ℝ) (natoms : ℕ) (atoms : ℕ → V3) (h ih : M3) (lists : List ℕ × List ℕ) (s : Res) : Res :=
  let s := (pairs natoms lists).foldl (addPair (fun _ _ => ljFunctions sigma eps) rc atoms h ih) s
  let t := ljLongrange sigma eps natoms rc (cellVolume h)
  ⟨s.pot + t.1, s.forces, Matrix.of fun k l => if k = l then s.virial k l + t.2 else s.virial k l⟩

/-- `vstyle` 60 and 63 (L970-971): `base` is the water potential, or zero (L935-941). -/
noncomputable def committee1 (rc : ℝ) (natoms : ℕ) (atoms : ℕ → V3) (h ih : M3) (lists : List ℕ × List ℕ) (base : Res) : Res :=
  addLj 2.5 2e-6 rc natoms atoms h ih lists base

/-- `vstyle` 61 and 64 (L972-973). -/
noncomputable def committee2 (rc : ℝ) (natoms : ℕ) (atoms : ℕ → V3) (h ih : M3) (lists : List ℕ × List ℕ) (base : Res) : Res :=
  addLj 2.1 24e-6 rc natoms atoms h ih lists base

/-- `vstyle` 62 and 65 (L974-1020): the two members written to the extra string and the result that is returned. -/
noncomputable def committeeJson (rc : ℝ) (natoms : ℕ) (atoms : ℕ → V3) (h ih : M3) (lists : List ℕ × List ℕ) (base : Res) :
    (Res × Res) × Res :=
  let lj := fun sigma eps s => addLj sigma eps rc natoms atoms h ih lists s
  let first := lj 2.5 2e-6 base
  let second := lj 2.1 24e-6 (lj 2.5 (-2e-6) first)
  ((first, second), lj 2.5 1e-6 (lj 2.1 (-12e-6) second))

/-- `reshape(virial, (/9/))`: columns one after the other. -/
def reshape9 (m : M3) : List ℝ := [m 0 0, m 1 0, m 2 0, m 0 1, m 1 1, m 2 1, m 0 2, m 1 2, m 2 2]

/-- The virial in a message (L728, L740). -/
def messageVirial (m : M3) : List ℝ := reshape9 m.transpose

/-- The virial of a member in the extra string (L989, L1004). -/
def extraVirial (m : M3) : List ℝ := reshape9 m

/-- Nine numbers as a matrix of numpy: rows one after the other (`ipi/interfaces/sockets.py` L472-473,
`ipi/engine/forcefields.py` L1522). -/
def readVirial (l : List ℝ) : M3 := Matrix.of fun i j => l.getD (3 * i + j) 0

/-- `ForceBead.get_vir` (`ipi/engine/forces.py` L229-240). -/
def upperVirial (m : M3) : M3 := Matrix.of fun i j => if i ≤ j then m i j else 0

end Verif.F90
