/-
Model of the tools that remove the effect of a thermostat from a vibrational spectrum.

Code: /repo/ipi/utils/tools/gle.py L58-196 (`Aqp`, `Dqp`, `Cqp`, `gle_frequency_kernel`,
      `isra_deconvolute`), /repo/tools/py/gleacf.py L45-78 (`gleacf`).

Simplifications: numbers are reals or complex numbers; `numpy.linalg.eig` is any list of eigenvalues
and any invertible matrix of eigenvectors (`IsEig`), so matrices that cannot be diagonalised, for
which `numpy.linalg.inv` gives an exception or noise, are not modelled.  The state vector is
`(q, p, s)`: its indices are `Unit ⊕ m`, where `m` are the indices of the matrices of the thermostat
and `p : m` stands for index `0` of `m` (index `1` of the state vector).
-/
import Mathlib.Data.Complex.Basic
import Mathlib.Analysis.SpecialFunctions.Pow.Complex
import Mathlib.Data.Matrix.Mul
import Mathlib.LinearAlgebra.Matrix.NonsingularInverse

namespace Verif.GleAcf

open Matrix

variable {m : Type} [Fintype m] [DecidableEq m]

/-- /repo/ipi/utils/tools/gle.py L58-69: `Aqp`. -/
def Aqp (p : m) (ω0 : ℝ) (Ap : Matrix m m ℝ) : Matrix (Unit ⊕ m) (Unit ⊕ m) ℝ :=
  Matrix.of fun i j => match i, j with
    | .inl _, .inl _ => 0
    | .inr i, .inl _ => if i = p then -ω0 ^ 2 else 0
    | .inl _, .inr j => if j = p then 1 else 0
    | .inr i, .inr j => Ap i j

/-- /repo/ipi/utils/tools/gle.py L72-81: `Dqp`. -/
def Dqp (Dp : Matrix m m ℝ) : Matrix (Unit ⊕ m) (Unit ⊕ m) ℝ :=
  Matrix.of fun i j => match i, j with
    | .inr i, .inr j => Dp i j
    | _, _ => 0

/-- `numpy.linalg.eig` of a real matrix and `numpy.linalg.inv` of the eigenvectors. -/
structure IsEig {ι : Type} [Fintype ι] [DecidableEq ι] (M : Matrix ι ι ℝ) (w : ι → ℂ)
    (O Oinv : Matrix ι ι ℂ) : Prop where
  vec : M.map Complex.ofReal * O = O * diagonal w
  inv : O * Oinv = 1

/-- /repo/ipi/utils/tools/gle.py L99-100: column `q` times `omega0`, then row `q` divided by it. -/
noncomputable def scaleA (ω0 : ℝ) (A : Matrix (Unit ⊕ m) (Unit ⊕ m) ℝ) :
    Matrix (Unit ⊕ m) (Unit ⊕ m) ℝ :=
  Matrix.of fun i j =>
    let x := match j with | .inl _ => A i j * ω0 | .inr _ => A i j
    match i with | .inl _ => x / ω0 | .inr _ => x

/-- /repo/ipi/utils/tools/gle.py L101-102: column `q` divided by `omega0`, twice. -/
noncomputable def scaleD (ω0 : ℝ) (D : Matrix (Unit ⊕ m) (Unit ⊕ m) ℝ) :
    Matrix (Unit ⊕ m) (Unit ⊕ m) ℝ :=
  Matrix.of fun i j => match j with | .inl _ => D i j / ω0 / ω0 | .inr _ => D i j

/-- /repo/ipi/utils/tools/gle.py L107-111: `nC` from the eigenvalues `a` and eigenvectors. -/
noncomputable def lyapunov {ι : Type} [Fintype ι] [DecidableEq ι] (a : ι → ℂ) (O Oinv : Matrix ι ι ℂ)
    (D : Matrix ι ι ℝ) : Matrix ι ι ℝ :=
  let W := Matrix.of fun i j => (Oinv * D.map Complex.ofReal * Oinvᵀ) i j / (a i + a j)
  (O * (W * Oᵀ)).map Complex.re

/-- /repo/ipi/utils/tools/gle.py L113-114: column `q` and then row `q` divided by `omega0`. -/
noncomputable def unscaleC (ω0 : ℝ) (C : Matrix (Unit ⊕ m) (Unit ⊕ m) ℝ) :
    Matrix (Unit ⊕ m) (Unit ⊕ m) ℝ :=
  Matrix.of fun i j =>
    let x := match j with | .inl _ => C i j / ω0 | .inr _ => C i j
    match i with | .inl _ => x / ω0 | .inr _ => x

/-- /repo/ipi/utils/tools/gle.py L93-115: `Cqp`; `a`, `O` and `Oinv` are the results of
`numpy.linalg.eig` and `inv` for the scaled matrix. -/
noncomputable def Cqp (ω0 : ℝ) (a : Unit ⊕ m → ℂ) (O Oinv : Matrix (Unit ⊕ m) (Unit ⊕ m) ℂ)
    (D : Matrix (Unit ⊕ m) (Unit ⊕ m) ℝ) : Matrix (Unit ⊕ m) (Unit ⊕ m) ℝ :=
  unscaleC ω0 (lyapunov a O Oinv (scaleD ω0 D))

/-- /repo/ipi/utils/tools/gle.py L146-147: the friction is at least twice the spacing of the
frequencies. -/
noncomputable def raised (p : m) (dw ω0 : ℝ) (A : Matrix (Unit ⊕ m) (Unit ⊕ m) ℝ) :
    Matrix (Unit ⊕ m) (Unit ⊕ m) ℝ :=
  if A (.inr p) (.inr p) < 2 * dw / ω0 then
    Matrix.of fun i j => if i = .inr p ∧ j = .inr p then 2 * dw / ω0 else A i j
  else A

/-- /repo/ipi/utils/tools/gle.py L151-165: an element of the kernel, for the covariance `C`, the
eigenvalues `w2` and eigenvectors of the square of the drift matrix. -/
noncomputable def element (p : m) (dw ω0 ω : ℝ) (C : Matrix (Unit ⊕ m) (Unit ⊕ m) ℝ)
    (w2 : Unit ⊕ m → ℂ) (O Oinv : Matrix (Unit ⊕ m) (Unit ⊕ m) ℂ) : ℝ :=
  (∑ k, O (.inr p) k * w2 k ^ (2⁻¹ : ℂ) / ω0
      * ((Oinv * C.map Complex.ofReal) k (.inr p) / (w2 k + ω ^ 2 / ω0 ^ 2))).re
    * dw * 2 / Real.pi

/-- /repo/ipi/utils/tools/gle.py L128-129: the frequencies that are used: the first is at least a
tenth of the spacing. -/
noncomputable def omlist (omega : ℕ → ℝ) (k : ℕ) : ℝ :=
  if k = 0 then max (omega 0) (|omega 1 - omega 0| * 1e-1) else omega k

/-! ### Deconvolution -/

section Isra
variable {ι : Type} [Fintype ι]

/-- /repo/ipi/utils/tools/gle.py L183: one step, `f * np.dot(CT, y) / np.dot(CTC, f)`. -/
noncomputable def israStep (ker : Matrix ι ι ℝ) (y f : ι → ℝ) : ι → ℝ :=
  fun i => f i * (kerᵀ *ᵥ y) i / ((kerᵀ * ker) *ᵥ f) i

/-- /repo/ipi/utils/tools/gle.py L175 and L182-183: `f` after some steps; it starts at `y`. -/
noncomputable def isra (ker : Matrix ι ι ℝ) (y : ι → ℝ) : ℕ → ι → ℝ
  | 0 => y
  | n + 1 => israStep ker y (isra ker y n)

/-- /repo/ipi/utils/tools/gle.py L187: the error that is reported,
`np.linalg.norm((np.dot(f, ker) - y)) ** 2`. -/
noncomputable def reported (ker : Matrix ι ι ℝ) (y f : ι → ℝ) : ℝ := ∑ i, ((f ᵥ* ker) i - y i) ^ 2

/-- /repo/tools/py/gleacf.py L71: the convolution, `np.dot(iy, ker.T)`. -/
def convolve (ker : Matrix ι ι ℝ) (f : ι → ℝ) : ι → ℝ := f ᵥ* kerᵀ

end Isra

end Verif.GleAcf
