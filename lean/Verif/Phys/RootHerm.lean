import Mathlib.Analysis.Matrix.Spectrum
import Mathlib.Analysis.Matrix.PosDef
import Mathlib.Algebra.Order.Star.Real

/-!
# The square root of a symmetric matrix

Models `root_herm` of `ipi/utils/mathtools.py` (376-412).  numpy's `eigh` is taken by its documented
result: the eigenvalues `w` and an orthogonal matrix `V` of eigenvectors.  The symmetry test
(`abs(A.T - A) < 1e-10`) is exact here; the warnings are left out.
-/

namespace Verif.RootHerm

open Matrix

variable {n : Type} [Fintype n] [DecidableEq n]

/-- What `np.linalg.eigh(A)` returns (`mathtools.py` 389). -/
structure IsEigh (A : Matrix n n ℝ) (w : n → ℝ) (V : Matrix n n ℝ) : Prop where
  orth : Vᵀ * V = 1
  dec : A = V * diagonal w * Vᵀ

/-- The diagonal of `diag` (`mathtools.py` 391-403): a negative eigenvalue is replaced by zero. -/
noncomputable def rootDiag (w : n → ℝ) (i : n) : ℝ :=
  open scoped Classical in
  if 0 ≤ w i then √(w i) else 0

/-- The returned matrix (`mathtools.py` 404). -/
noncomputable def rootOf (w : n → ℝ) (V : Matrix n n ℝ) : Matrix n n ℝ :=
  V * (diagonal (rootDiag w) * Vᵀ)

/-- Every symmetric matrix has a decomposition. -/
theorem exists_eigh {A : Matrix n n ℝ} (hA : A.IsHermitian) : ∃ w V, IsEigh A w V := by
  refine ⟨hA.eigenvalues, (hA.eigenvectorUnitary : Matrix n n ℝ), ?_, ?_⟩
  · have := Unitary.coe_star_mul_self hA.eigenvectorUnitary
    rwa [star_eq_conjTranspose, conjTranspose_eq_transpose_of_trivial] at this
  · have h := hA.spectral_theorem
    rw [Unitary.conjStarAlgAut_apply] at h
    rw [star_eq_conjTranspose, conjTranspose_eq_transpose_of_trivial] at h
    exact h

theorem IsEigh.symm {A : Matrix n n ℝ} {w V} (h : IsEigh A w V) : Aᵀ = A := by
  conv_rhs => rw [h.dec]
  rw [h.dec]
  simp [Matrix.mul_assoc]

theorem IsEigh.orth' {A : Matrix n n ℝ} {w V} (h : IsEigh A w V) : V * Vᵀ = 1 :=
  mul_eq_one_comm.1 h.orth

theorem IsEigh.diag {A : Matrix n n ℝ} {w V} (h : IsEigh A w V) : Vᵀ * A * V = diagonal w := by
  rw [h.dec]
  calc Vᵀ * (V * diagonal w * Vᵀ) * V = (Vᵀ * V) * diagonal w * (Vᵀ * V) := by
        simp [Matrix.mul_assoc]
    _ = diagonal w := by rw [h.orth]; simp

/-- The eigenvalues are nonnegative exactly for positive semidefinite matrices. -/
theorem IsEigh.nonneg_iff {A : Matrix n n ℝ} {w V} (h : IsEigh A w V) :
    A.PosSemidef ↔ ∀ i, 0 ≤ w i := by
  constructor
  · intro hp i
    have h1 : (Vᵀ * A * V).PosSemidef := by
      have := hp.conjTranspose_mul_mul_same V
      rwa [conjTranspose_eq_transpose_of_trivial] at this
    rw [h.diag, posSemidef_diagonal_iff] at h1
    exact h1 i
  · intro hw
    have h1 : (diagonal w).PosSemidef := posSemidef_diagonal_iff.2 hw
    have := h1.mul_mul_conjTranspose_same V
    rw [conjTranspose_eq_transpose_of_trivial, ← h.dec] at this
    exact this

/-- The square of the result: the matrix with the negative eigenvalues removed. -/
theorem rootOf_sq {A : Matrix n n ℝ} {w V} (h : IsEigh A w V) :
    rootOf w V * (rootOf w V)ᵀ = V * diagonal (fun i => max (w i) 0) * Vᵀ := by
  have hd : diagonal (rootDiag w) * diagonal (rootDiag w) = diagonal (fun i => max (w i) 0) := by
    rw [diagonal_mul_diagonal]
    congr 1
    funext i
    unfold rootDiag
    split
    · rename_i h0
      rw [Real.mul_self_sqrt h0, max_eq_left h0]
    · rename_i h0
      rw [max_eq_right (not_le.1 h0).le, mul_zero]
  unfold rootOf
  rw [transpose_mul, transpose_mul, transpose_transpose, diagonal_transpose]
  calc V * (diagonal (rootDiag w) * Vᵀ) * (V * diagonal (rootDiag w) * Vᵀ)
      = V * (diagonal (rootDiag w) * (Vᵀ * V) * diagonal (rootDiag w)) * Vᵀ := by
        simp [Matrix.mul_assoc]
    _ = _ := by rw [h.orth, Matrix.mul_one, hd]

/-- The result squares to the argument exactly when that is positive semidefinite. -/
theorem rootOf_iff {A : Matrix n n ℝ} {w V} (h : IsEigh A w V) :
    rootOf w V * (rootOf w V)ᵀ = A ↔ A.PosSemidef := by
  rw [rootOf_sq h, h.nonneg_iff]
  constructor
  · intro e i
    have h2 := congrArg (fun M => Vᵀ * M * V) e
    rw [h.diag, show Vᵀ * (V * diagonal (fun i => max (w i) 0) * Vᵀ) * V
      = (Vᵀ * V) * diagonal (fun i => max (w i) 0) * (Vᵀ * V) by simp [Matrix.mul_assoc], h.orth,
      Matrix.one_mul, Matrix.mul_one] at h2
    have h3 := congrFun (diagonal_injective h2) i
    rw [← h3]
    exact le_max_right _ _
  · intro hw
    conv_rhs => rw [h.dec]
    simp only [fun i => max_eq_left (hw i)]

/-- The result is symmetric. -/
theorem rootOf_symm (w : n → ℝ) (V : Matrix n n ℝ) : (rootOf w V)ᵀ = rootOf w V := by
  unfold rootOf
  simp [Matrix.mul_assoc]

end Verif.RootHerm
