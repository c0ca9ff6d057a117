import Mathlib.Algebra.BigOperators.Fin
import Mathlib.Analysis.SpecialFunctions.Trigonometric.Basic
import Mathlib.Analysis.Real.Sqrt
import Verif.Io.Sparse
import Verif.Phys.Cell

/-!
# The frequency matrix of the planetary model

Model of `/repo/ipi/engine/motion/planetary.py` with exact real numbers.  The dynamics with a
fixed centroid between the samples (`nvt-cc`) and the clock are not modelled: the samples are
arbitrary.
-/

namespace Verif.Planet

open Finset Verif.Cell Verif.Sparse

/-- What python raises here. -/
inductive PErr where
  | indexError | valueError | zeroDivision
  | savez (e : Err)
  deriving DecidableEq

section matrix

variable {n N : ℕ}

/-- `fms` of `increment` (L162-163): the mass-scaled forces on the normal modes, without the
centroid.  `sm3` are the square roots of the masses. -/
noncomputable def fms (sm3 : Fin N → ℝ) (fnm : Fin n → Fin N → ℝ) (k : Fin n) (a : Fin N) : ℝ :=
  if (k : ℕ) = 0 then 0 else fnm k a / sm3 a

/-- `qms` (L161, L164-165). -/
noncomputable def qms (sm3 : Fin N → ℝ) (omegak : Fin n → ℝ) (qnm : Fin n → Fin N → ℝ) (k : Fin n)
    (a : Fin N) : ℝ :=
  (if (k : ℕ) = 0 then 0 else qnm k a * sm3 a) * omegak k ^ 2

/-- What `increment` (L158-171) adds to `omega2`. -/
noncomputable def incr (sm3 : Fin N → ℝ) (omegak : Fin n → ℝ) (qnm fnm : Fin n → Fin N → ℝ)
    (a b : Fin N) : ℝ :=
  (∑ k, fms sm3 fnm k a * fms sm3 fnm k b) -
    0.5 * ((∑ k, fms sm3 fnm k a * qms sm3 omegak qnm k b) +
      ∑ k, fms sm3 fnm k b * qms sm3 omegak qnm k a)

/-- `omega2` after `nsamples` steps of the dynamics and the division, L233-258.  `q s` and `f s`
are the normal mode positions and forces at the sample `s`; the first sample is taken before
any step.  `temp` is in atomic units, where Boltzmann's constant is one. -/
noncomputable def estimate (sm3 : Fin N → ℝ) (omegak : Fin n → ℝ) (temp : ℝ) (nsamples : ℕ)
    (q f : ℕ → Fin n → Fin N → ℝ) (a b : Fin N) : ℝ :=
  (∑ s ∈ range (nsamples + 1), incr sm3 omegak (q s) (f s) a b) /
    ((n : ℝ) * temp * ((nsamples : ℝ) + 1) * ((n : ℝ) - 1))

end matrix

/-! ## Screening -/

/-- `np.concatenate((A, A, A), axis=0)`. -/
def three0 {α : Type} (A : Dense α) : Dense α := ⟨3 * A.m, A.n, fun i j => A.at' (i % A.m) j⟩

/-- `np.concatenate((A, A, A), axis=1)`. -/
def three1 {α : Type} (A : Dense α) : Dense α := ⟨A.m, 3 * A.n, fun i j => A.at' i (j % A.n)⟩

/-- `A.reshape(-1).reshape(-1, c)` in row-major order. -/
def reshape {α : Type} (c : ℕ) (A : Dense α) : Dense α :=
  ⟨A.m * A.n / c, c, fun r t => A.at' ((r * c + t) / A.n) ((r * c + t) % A.n)⟩

/-- The last four lines of `matrix_screen` (L191-195), "account for 3 dimensions", for the matrix
`A` of the atoms. -/
def expand {α : Type} (A : Dense α) : Dense α :=
  let n := A.m
  (reshape (3 * n) (reshape n (three1 (three0 A))).tr).tr

/-- The first part of `matrix_screen` (L178-189): one for atoms nearer than `screen`.  The
transpositions and reshapes around the multiplication with the cell matrices only put the vectors
into columns. -/
noncomputable def near (h ih : Verif.Cell.Mat) (screen : ℝ) (q : ℕ → Vec) (i j : ℕ) : ℝ :=
  if (∑ d, minimumDistance h ih (q i) (q j) d * minimumDistance h ih (q i) (q j) d) < screen ^ 2
  then 1 else 0

/-- What is written of `omega2`, L261-270, before the conversion to half precision: screening,
symmetrisation and `np.tril`. -/
noncomputable def toSave (h ih : Verif.Cell.Mat) (screen : ℝ) (natoms : ℕ) (q : ℕ → Vec) (omega2 : ℕ → ℕ → ℝ) :
    ℕ → ℕ → ℝ :=
  let w : ℕ → ℕ → ℝ := fun a b =>
    if 0 < screen then omega2 a b * (expand ⟨natoms, natoms, near h ih screen q⟩).at' a b else omega2 a b
  let s : ℕ → ℕ → ℝ := fun a b => 0.5 * (w a b + w b a)
  fun a b => if b ≤ a then s a b else 0

/-! ## Beads -/

/-- The assignment `dnm.qnm[:] = nm.qnm[:nb] * sqrt(nb) / sqrt(nbase)` of L129-131 and L217-221, for
one coordinate.  The slice has `min nbase nb` rows; numpy repeats a single row and otherwise
needs the same number of rows. -/
noncomputable def start (nbase nb : ℕ) (qnm : ℕ → ℝ) : Except PErr (ℕ → ℝ) :=
  if nb ≤ nbase then .ok fun k => qnm k * √nb / √nbase
  else if nbase = 1 then .ok fun _ => qnm 0 * √nb / √nbase
  else .error .valueError

/-- The frequency given to all the modes of the copy, L119-125; `omegak[1]` fails for one bead. -/
noncomputable def modeFreq (nbase nb : ℕ) (omegak : ℕ → ℝ) : Except PErr ℝ :=
  if nbase ≤ 1 then .error .indexError
  else .ok (omegak 1 * nb * Real.sin (Real.pi / nb) / (nbase * Real.sin (Real.pi / nbase)))

/-- `step` (L211-284): nothing is done unless `step` is a multiple of `stride`; otherwise the matrix
is saved at the end, in the archive `archive`. -/
def planetStep (stride step : ℕ) (archive : List UInt8) : Except PErr (Option Verif.Text.Str) :=
  if stride = 0 then .error .zeroDivision
  else if step % stride ≠ 0 then .ok none
  else
    match encodedSavez archive with
    | .error e => .error (.savez e)
    | .ok t => .ok (some t)

end Verif.Planet
