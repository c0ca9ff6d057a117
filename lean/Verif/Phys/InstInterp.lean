import Verif.Phys.Contract
import Verif.Phys.InstPost

/-!
# Instantons with another number of beads

Model of `interpolate_instanton` (`/repo/ipi/utils/tools/instanton_interpolation.py` L18-192) from the positions
and the Hessian of the half ring polymer on, with exact real numbers.
-/

namespace Verif.InstInterp

open Verif.Nm Verif.Contract Verif.InstPost

/-- `np.concatenate((q, np.flipud(q)))` (L78, L160, L171-173), one column. -/
def ring (n : ℕ) (q : ℕ → ℝ) : Fin (2 * n) → ℝ := fun i => doubleQ n q i

/-- `rpc.b1tob2(q2)` with `rpc = nm_rescale(2 * nbeads, 2 * nbeadsNew)` (L79-80, L161, L174), one column. -/
noncomputable def newRing (n n' : ℕ) (q : ℕ → ℝ) : Fin (2 * n') → ℝ := fun a =>
  b1tob2 (2 * n') [] (fun b (_ : Fin 1) => ring n q b) a 0

/-- The first `nbeadsNew` beads (L80). -/
noncomputable def newHalf (n n' : ℕ) (q : ℕ → ℝ) (a : ℕ) : ℝ := if h : a < 2 * n' then newRing n n' q ⟨a, h⟩ else 0

/-- The new Hessian (L146-177): for each `i` and `j` the elements of all beads are collected, `hessian[i, j + size0 * n]`,
expanded, and added to the columns `j:size2:size0`. -/
noncomputable def newHess (n n' size0 : ℕ) (h : ℕ → ℕ → ℝ) (i c : ℕ) : ℝ :=
  ((List.range size0).map fun j : ℕ =>
    if j ≤ c ∧ (c - j) % size0 = 0 ∧ c < size0 * (2 * n') then newHalf n n' (fun k => h i (j + size0 * k)) ((c - j) / size0) else 0).sum

end Verif.InstInterp
