import Mathlib.Analysis.SpecialFunctions.Trigonometric.Basic
import Mathlib.Data.Matrix.Mul
import Mathlib.LinearAlgebra.Matrix.Defs

/-!
# Normal mode transforms

Model of `/repo/ipi/utils/nmtransform.py`.  Real numbers are exact.  An array with one row per
bead is a function of the bead and of the column; the column `c` belongs to the atom `c / 3`.
-/

namespace Verif.Nm

open Real

/-- The entry `[i, j]` of the matrix built by `mk_nm_matrix` before it is divided by
`sqrt(nbeads)`, `nmtransform.py` L37-46.  The last two assignments of the python (`if nbeads`
is even) overwrite the row `nbeads // 2`. -/
noncomputable def nmEntry (n i j : ℕ) : ℝ :=
  if n % 2 = 0 ∧ i = n / 2 then (if j % 2 = 0 then 1 else -1)
  else if i = 0 then 1
  else if i < n / 2 + 1 then √2 * cos (2 * π * j * i / n)
  else √2 * sin (2 * π * j * i / n)

/-- `mk_nm_matrix` (L25-47). -/
noncomputable def mkNm (n : ℕ) : Matrix (Fin n) (Fin n) ℝ := fun i j => nmEntry n i j / √n

/-- `nm_eva` (L50-51): the eigenvalue of the mode `k`, in units of the bead frequency. -/
noncomputable def nmEva (n k : ℕ) : ℝ := 2 * sin (k * π / n)

/-- `o_nm_eva` (L54-55). -/
noncomputable def oNmEva (n k : ℕ) : ℝ := 2 * sin (k * π / (2 * n))

/-- The entry `[i, j]` of the matrix built by `mk_o_nm_matrix` before the division, L64-68. -/
noncomputable def oEntry (n i j : ℕ) : ℝ :=
  if i = 0 then 1 else √2 * cos (π * (j + 1 / 2) * i / n)

/-- `mk_o_nm_matrix` (L58-69). -/
noncomputable def mkONm (n : ℕ) : Matrix (Fin n) (Fin n) ℝ := fun i j => oEntry n i j / √n

/-- An array with one row per bead. -/
abbrev Arr (n m : ℕ) := Fin n → Fin m → ℝ

/-- `np.tensordot(M, q, axes=(1, 0))` for one column. -/
def apply {n m : ℕ} (M : Matrix (Fin n) (Fin m) ℝ) (v : Fin m → ℝ) : Fin n → ℝ :=
  fun i => ∑ j, M i j * v j

/-- `nm_trans.b2nm` (L182-204): the closed path matrix for all columns, then the open path
matrix for the three columns of each atom listed as open. -/
noncomputable def b2nm {n m : ℕ} (op : List ℕ) (q : Arr n m) : Arr n m := fun i c =>
  if (c : ℕ) / 3 ∈ op then apply (mkONm n) (fun j => q j c) i
  else apply (mkNm n) (fun j => q j c) i

/-- `nm_trans.nm2b` (L206-227). -/
noncomputable def nm2b {n m : ℕ} (op : List ℕ) (q : Arr n m) : Arr n m := fun i c =>
  if (c : ℕ) / 3 ∈ op then apply (mkONm n).transpose (fun j => q j c) i
  else apply (mkNm n).transpose (fun j => q j c) i

/-! ## The version with Fourier transforms

Simplification: the Fourier transforms of numpy and of pyfftw are taken to compute what they
are documented to compute. -/

/-- Real part of the entry `k` of `rfft`: `Σ_j q_j e^{-2πi jk/n}`. -/
noncomputable def rfftRe (n : ℕ) (q : Fin n → ℝ) (k : ℕ) : ℝ :=
  ∑ j : Fin n, q j * cos (2 * π * j * k / n)

/-- Imaginary part of the entry `k` of `rfft`. -/
noncomputable def rfftIm (n : ℕ) (q : Fin n → ℝ) (k : ℕ) : ℝ :=
  - ∑ j : Fin n, q j * sin (2 * π * j * k / n)

/-- `irfft` of the coefficients `re k + i im k`, `k = 0 … n/2`: the inverse transform of the
hermitian completion; imaginary parts of the first and, for even `n`, of the last coefficient
are ignored. -/
noncomputable def irfft (n : ℕ) (re im : ℕ → ℝ) (j : ℕ) : ℝ :=
  (re 0 + ∑ k ∈ Finset.range ((n - 1) / 2),
      2 * (re (k + 1) * cos (2 * π * j * (k + 1 : ℕ) / n)
        - im (k + 1) * sin (2 * π * j * (k + 1 : ℕ) / n))
    + (if n % 2 = 0 then re (n / 2) * (if j % 2 = 0 then 1 else -1) else 0)) / n

/-- `nm_fft.b2nm` for a closed path column (L433-463).  The slice `qnm[nbeads:nmodes:-1]` runs
over `nbeads-1, …, nmodes+1`, so that the entry `nbeads-k` gets the imaginary part of the
coefficient `k`. -/
noncomputable def fftFwd (n : ℕ) (q : Fin n → ℝ) : Fin n → ℝ := fun i =>
  if n = 1 then q i
  else if n = 2 then rfftRe n q i / √n
  else if (i : ℕ) = 0 then rfftRe n q 0 / √n
  else if n % 2 = 0 then
    if (i : ℕ) < n / 2 then rfftRe n q i / √n * √2
    else if (i : ℕ) = n / 2 then rfftRe n q (n / 2) / √n
    else rfftIm n q (n - i) / √n * √2
  else
    if (i : ℕ) < n / 2 + 1 then rfftRe n q i / √n * √2
    else rfftIm n q (n - i) / √n * √2

/-- Real parts of the coefficients that `nm_fft.nm2b` (L490-507) hands to the inverse
transform. -/
noncomputable def bwdRe (n : ℕ) (qnm : ℕ → ℝ) (k : ℕ) : ℝ :=
  if n = 2 then qnm k
  else if k = 0 then qnm 0
  else if n % 2 = 0 ∧ k = n / 2 then qnm (n / 2)
  else qnm k * √(1 / 2)

/-- Imaginary parts of the coefficients that `nm_fft.nm2b` (L490-507) hands to the inverse
transform. -/
noncomputable def bwdIm (n : ℕ) (qnm : ℕ → ℝ) (k : ℕ) : ℝ :=
  if n = 2 then 0
  else if k = 0 then 0
  else if n % 2 = 0 ∧ k = n / 2 then 0
  else qnm (n - k) * √(1 / 2)

/-- `nm_fft.nm2b` for a closed path column (L474-518). -/
noncomputable def fftBwd (n : ℕ) (qnm : Fin n → ℝ) : Fin n → ℝ := fun j =>
  if n = 1 then qnm j
  else
    let x : ℕ → ℝ := fun i => if h : i < n then qnm ⟨i, h⟩ else 0
    irfft n (bwdRe n x) (bwdIm n x) j * √n

/-- `nm_fft.b2nm` (L433-472); with one or two beads the function returns before the loop over
the open paths. -/
noncomputable def fftB2nm {n m : ℕ} (op : List ℕ) (q : Arr n m) : Arr n m := fun i c =>
  if n = 1 ∨ n = 2 then fftFwd n (fun j => q j c) i
  else if (c : ℕ) / 3 ∈ op then apply (mkONm n) (fun j => q j c) i
  else fftFwd n (fun j => q j c) i

/-- `nm_fft.nm2b` (L474-525). -/
noncomputable def fftNm2b {n m : ℕ} (op : List ℕ) (q : Arr n m) : Arr n m := fun i c =>
  if n = 1 ∨ n = 2 then fftBwd n (fun j => q j c) i
  else if (c : ℕ) / 3 ∈ op then apply (mkONm n).transpose (fun j => q j c) i
  else fftBwd n (fun j => q j c) i

end Verif.Nm
