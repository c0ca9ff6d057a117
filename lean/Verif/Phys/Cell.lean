import Mathlib.Data.Matrix.Mul
import Mathlib.LinearAlgebra.Matrix.Notation
import Mathlib.Data.Real.Basic
import Mathlib.Algebra.Order.Floor.Ring
import Mathlib.Algebra.Order.Round
import Mathlib.Data.Real.Archimedean

/-!
# The simulation cell

Model of `/repo/ipi/engine/cell.py` and of `invert_ut3x3`, `det_ut3x3`
(`/repo/ipi/utils/mathtools.py` L248-264, L296-311), with exact real numbers.
-/

namespace Verif.Cell

open Matrix

abbrev Vec := Fin 3 → ℝ
abbrev Mat := Matrix (Fin 3) (Fin 3) ℝ

/-- Rounding to the nearest integer, halves to the even one, as `round` and `np.round` do. -/
noncomputable def roundEven (x : ℝ) : ℤ :=
  if x - ⌊x⌋ < 1 / 2 then ⌊x⌋
  else if 1 / 2 < x - ⌊x⌋ then ⌊x⌋ + 1
  else if ⌊x⌋ % 2 = 0 then ⌊x⌋ else ⌊x⌋ + 1

/-- `invert_ut3x3` (`mathtools.py` L248-264). -/
noncomputable def invUt (h : Mat) : Mat :=
  let i00 := 1 / h 0 0
  let i11 := 1 / h 1 1
  let i22 := 1 / h 2 2
  let i01 := -i00 * h 0 1 * i11
  let i12 := -i11 * h 1 2 * i22
  let i02 := -i12 * h 0 1 * i00 - i00 * h 0 2 * i22
  !![i00, i01, i02; 0, i11, i12; 0, 0, i22]

/-- `det_ut3x3` (`mathtools.py` L296-311). -/
def detUt (h : Mat) : ℝ := h 0 0 * h 1 1 * h 2 2

/-- Fractional coordinates less their rounding (`cell.py` L78-81, L101-102, L123-125). -/
noncomputable def frac (s : Vec) : Vec := fun i => s i - roundEven (s i)

/-- `apply_pbc` (L66-83) with the inverse cell `ih`. -/
noncomputable def wrap (h ih : Mat) (q : Vec) : Vec := h *ᵥ frac (ih *ᵥ q)

/-- `array_pbc` (L85-104): the positions of atom `a` are the entries `3a`, `3a+1`, `3a+2`. -/
noncomputable def arrayPbc {N : ℕ} (h ih : Mat) (pos : Fin N → Vec) : Fin N → Vec :=
  fun a => h *ᵥ frac (ih *ᵥ pos a)

/-- `minimum_distance` (L106-127). -/
noncomputable def minimumDistance (h ih : Mat) (q1 q2 : Vec) : Vec := h *ᵥ frac (ih *ᵥ (q1 - q2))

end Verif.Cell
