import Verif.Phys.Thermostat
import Mathlib.Data.Matrix.Mul
import Mathlib.Analysis.Real.Sqrt
import Mathlib.Algebra.BigOperators.Fin

/-!
# The decomposition of a covariance and the first values of the auxiliary momenta of a GLE

Sources: `ipi/utils/mathtools.py` 94-147 (`stab_cholesky`), `ipi/engine/thermostats.py` 765-782
(`ThermoGLE.bind`), 905-953 (`ThermoNMGLE.bind`).  Numbers are real numbers.
-/

namespace Verif.GleInit

open Matrix

/-- The arrays `L` and `D` of `stab_cholesky` (`mathtools.py` 114-127) after the first loop: for `j < i` the entry
`L[i, j]`, and for `j = i` the entry `D[i]`.  No entry is changed after it was computed, so the loops are written as a
recursion over the entries that were computed before. -/
noncomputable def ldl (M : ℕ → ℕ → ℝ) (i j : ℕ) : ℝ :=
  if _h : j ≤ i then
    if _e : j = i then
      M i i - ∑ k : Fin i, ldl M i k * ldl M i k * ldl M k k
    else
      let v := M i j - ∑ k : Fin j, ldl M i k * ldl M j k * ldl M k k
      if ldl M j j = 0 then v else v / ldl M j j
  else 0
termination_by (i, j)
decreasing_by
  all_goals first
    | (rw [Prod.lex_def]; simp; omega)
    | omega

/-- `D[i]` after the second loop (`mathtools.py` 131-140): the root of a positive number, otherwise zero. -/
noncomputable def rootD (M : ℕ → ℕ → ℝ) (j : ℕ) : ℝ :=
  if 0 < ldl M j j then Real.sqrt (ldl M j j) else 0

/-- `stab_cholesky` (`mathtools.py` 114-147): `S[i, j] = L[i, j] * D[j]` for `j <= i`, with `L[i, i] = 1`.  The warnings
are left out. -/
noncomputable def stabCholesky {n : ℕ} (M : Matrix (Fin n) (Fin n) ℝ) : Matrix (Fin n) (Fin n) ℝ :=
  let M' : ℕ → ℕ → ℝ := fun i j => if h : i < n ∧ j < n then M ⟨i, h.1⟩ ⟨j, h.2⟩ else 0
  fun i j => if (j : ℕ) = i then 1 * rootD M' j else if (j : ℕ) < i then ldl M' i j * rootD M' j else 0

/-- An array as it is read from the input: its shape and its numbers. -/
structure Arr where
  shape : List ℕ
  data : List ℝ

/-- The `s` array at the end of `ThermoGLE.bind` (`thermostats.py` 765-782): the array of the input if it has the shape
`(ns+1, n)`, otherwise the decomposition of `kb C` times the random array `xi`.  The messages are left out. -/
noncomputable def gleBind {ns n : ℕ} (kb : ℝ) (C : Matrix (Fin (ns + 1)) (Fin (ns + 1)) ℝ) (s : Arr)
    (xi : Fin (ns + 1) → Fin n → ℝ) : Fin (ns + 1) → Fin n → ℝ :=
  if s.shape ≠ [ns + 1, n] then
    fun k i => ∑ l, stabCholesky (kb • C) k l * xi l i
  else fun k i => s.data.getD (k * n + i) 0

/-- The `s` array at the end of `ThermoNMGLE.bind` (`thermostats.py` 905-953): an error when the number of matrices is
not the number of beads, the array of the input if it has the shape `(nb, ns+1, n)`, otherwise for each mode the
decomposition of its matrix times a random array.  The thermostats of the single modes are given slices of the array and
keep them, since the shapes agree. -/
noncomputable def nmGleBind {ns n nb : ℕ} (nbeads : ℕ) (kb : ℝ) (C : Fin nb → Matrix (Fin (ns + 1)) (Fin (ns + 1)) ℝ)
    (s : Arr) (xi : Fin nb → Fin (ns + 1) → Fin n → ℝ) : Option (Fin nb → Fin (ns + 1) → Fin n → ℝ) :=
  if nbeads ≠ nb then none
  else if s.shape ≠ [nb, ns + 1, n] then
    some fun b k i => ∑ l, stabCholesky (kb • C b) k l * xi b l i
  else some fun b k i => s.data.getD (b * ((ns + 1) * n) + k * n + i) 0

end Verif.GleInit
