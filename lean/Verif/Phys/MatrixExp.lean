import Mathlib.Data.Matrix.Mul
import Mathlib.Data.Real.Basic
import Mathlib.Data.List.Range

/-!
# The exponential of a matrix by a Taylor series and squarings

Source: `ipi/utils/mathtools.py` 59-91 (`matrix_exp`).  Numbers are real numbers.
-/

namespace Verif.MatrixExp

open Matrix

variable {n : ℕ}

/-- The coefficients `tc` (`mathtools.py` 76-79). -/
noncomputable def tc : ℕ → ℝ
  | 0 => 1
  | i + 1 => tc i / ((i : ℝ) + 1)

/-- The loop over the Taylor terms (`mathtools.py` 83-86), for `i` from `k - 1` down to `0`. -/
noncomputable def horner (SM : Matrix (Fin n) (Fin n) ℝ) : ℕ → Matrix (Fin n) (Fin n) ℝ → Matrix (Fin n) (Fin n) ℝ
  | 0, EM => EM
  | i + 1, EM => horner SM i (SM * EM + tc i • (1 : Matrix (Fin n) (Fin n) ℝ))

/-- The loop over the squarings (`mathtools.py` 88-89). -/
def squarings : ℕ → Matrix (Fin n) (Fin n) ℝ → Matrix (Fin n) (Fin n) ℝ
  | 0, EM => EM
  | i + 1, EM => squarings i (EM * EM)

/-- `matrix_exp` (`mathtools.py` 59-91). -/
noncomputable def matrixExp (M : Matrix (Fin n) (Fin n) ℝ) (ntaylor nsquare : ℕ) : Matrix (Fin n) (Fin n) ℝ :=
  let SM := ((2 : ℝ) ^ nsquare)⁻¹ • M
  squarings nsquare (horner SM ntaylor (tc ntaylor • (1 : Matrix (Fin n) (Fin n) ℝ)))

end Verif.MatrixExp
