import Verif.Phys.Cell
import Mathlib.Analysis.SpecialFunctions.Trigonometric.Inverse
import Mathlib.LinearAlgebra.Matrix.NonsingularInverse

/-!
# Cells given by lengths and angles

Model of `h2abc`, `genh2abc`, `h2abc_deg`, `abc2h` (`/repo/ipi/utils/mathtools.py` L150-245) and of
the cells in the comments of xyz files (`/repo/ipi/utils/io/backends/io_xyz.py` L105-144), in exact
arithmetic.
-/

namespace Verif.Cell

open Matrix

/-- Three lengths and three angles. -/
@[ext]
structure Abc where
  a : ℝ
  b : ℝ
  c : ℝ
  alpha : ℝ
  beta : ℝ
  gamma : ℝ

/-- `h2abc` (`mathtools.py` L150-172): the lattice vectors are the columns.  The code raises an
exception if the second or third one is zero; here the angles are then those of zero. -/
noncomputable def h2abc (h : Mat) : Abc :=
  let b := Real.sqrt (h 0 1 ^ 2 + h 1 1 ^ 2)
  let c := Real.sqrt (h 0 2 ^ 2 + h 1 2 ^ 2 + h 2 2 ^ 2)
  { a := h 0 0
    b := b
    c := c
    gamma := Real.arccos (h 0 1 / b)
    beta := Real.arccos (h 0 2 / c)
    alpha := Real.arccos ((hᵀ 1 ⬝ᵥ hᵀ 2) / (b * c)) }

/-- `genh2abc` (`mathtools.py` L175-197): the lattice vectors are the rows. -/
noncomputable def genh2abc (g : Mat) : Abc :=
  let a := Real.sqrt (g 0 ⬝ᵥ g 0)
  let b := Real.sqrt (g 1 ⬝ᵥ g 1)
  let c := Real.sqrt (g 2 ⬝ᵥ g 2)
  { a := a
    b := b
    c := c
    gamma := Real.arccos ((g 0 ⬝ᵥ g 1) / (a * b))
    beta := Real.arccos ((g 0 ⬝ᵥ g 2) / (a * c))
    alpha := Real.arccos ((g 2 ⬝ᵥ g 1) / (b * c)) }

/-- `h2abc_deg` (`mathtools.py` L200-219). -/
noncomputable def h2abcDeg (h : Mat) : Abc :=
  let x := h2abc h
  { x with
    alpha := x.alpha * 180 / Real.pi, beta := x.beta * 180 / Real.pi, gamma := x.gamma * 180 / Real.pi }

/-- `abc2h` (`mathtools.py` L222-245); `none` if there is a division by zero or the root of a
negative number. -/
noncomputable def abc2h (x : Abc) : Option Mat :=
  open Classical in
  let h00 := x.a
  let h01 := x.b * Real.cos x.gamma
  let h02 := x.c * Real.cos x.beta
  let h11 := x.b * Real.sin x.gamma
  if h11 = 0 then none
  else
    let h12 := (x.b * x.c * Real.cos x.alpha - h01 * h02) / h11
    let r := x.c ^ 2 - h02 ^ 2 - h12 ^ 2
    if r < 0 then none
    else some !![h00, h01, h02; 0, h11, h12; 0, 0, Real.sqrt r]

/-- Angles read in degrees (`io_xyz.py` L113-115, `deg2rad = np.pi / 180.0`). -/
noncomputable def readAbc (x : Abc) : Option Mat :=
  abc2h { x with
    alpha := x.alpha * (Real.pi / 180), beta := x.beta * (Real.pi / 180), gamma := x.gamma * (Real.pi / 180) }

/-- The cell of a comment with `CELL{GENH}` (`io_xyz.py` L119-125). -/
noncomputable def readGenh (g : Mat) : Option Mat := abc2h (genh2abc g)

/-- A position of a file with `CELL{GENH}` (`io_xyz.py` L139-144). -/
noncomputable def genhPos (h g : Mat) (u : Vec) : Vec := h *ᵥ (u ᵥ* g⁻¹)

end Verif.Cell
