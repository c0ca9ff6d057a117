import Verif.Phys.QuasiNewton

/-!
# Steps of an instanton calculation

Model of the start of an instanton calculation along the imaginary mode (`get_imvector`,
`/repo/ipi/utils/instools.py` L174-217), of the beads at which the potential is evaluated
(`PesMapper.interpolation`, `/repo/ipi/engine/motion/instanton.py` L330-358), of the steps of the optimisers
`NROptimizer` (L1613-1646) and `LanczosOptimizer` (L1661-1783) and of the test for convergence
(`DummyOptimizer.exitstep`, L1085-1169), with exact real numbers.  The coordinates are those of the atoms
that are not held; the coordinates of all beads are one finite type `ι`.
-/

namespace Verif.InstSteps

open Matrix Verif.QN

/-! ## The imaginary mode -/

/-- What can go wrong in `get_imvector`. -/
inductive Err where
  | value
  | type
deriving DecidableEq, Repr

section
variable {n : ℕ}

/-- `np.multiply(h, mm)` and the average with the transpose (L185-191). -/
noncomputable def dynm (m : Fin (n + 1) → ℝ) (h : Matrix (Fin (n + 1)) (Fin (n + 1)) ℝ) :
    Matrix (Fin (n + 1)) (Fin (n + 1)) ℝ :=
  fun i j => (h j i * (1 / √(m j) * (1 / √(m i))) + h i j * (1 / √(m i) * (1 / √(m j)))) / 2

/-- `np.linalg.eigh`: orthonormal columns and growing eigenvalues. -/
structure Eigh (A : Matrix (Fin (n + 1)) (Fin (n + 1)) ℝ) (d : Fin (n + 1) → ℝ)
    (w : Matrix (Fin (n + 1)) (Fin (n + 1)) ℝ) : Prop where
  orth : wᵀ * w = 1
  eig : A * w = w * diagonal d
  sorted : Monotone d

/-- The frequency in wave numbers (L194); `u` stands for `2 * np.pi * 3e10 * 2.4188843e-17`. -/
noncomputable def freq (u : ℝ) (d : ℝ) : ℝ :=
  open Classical in (if d < 0 then -√|d| else √|d|) / u

/-- `get_imvector` (L182-217) for a Hessian of the right size, from the result of `eigh`.  In the first
exception the whole array of frequencies is given to `%4.1f`, which fails with a `TypeError` (L200-203). -/
noncomputable def imvector (u : ℝ) (m : Fin (n + 1) → ℝ) (d : Fin (n + 1) → ℝ)
    (w : Matrix (Fin (n + 1)) (Fin (n + 1)) ℝ) : Except Err (Fin (n + 1) → ℝ) :=
  open Classical in
  if -80 < freq u (d 0) ∧ freq u (d 0) < 0 then .error .type
  else if 0 < freq u (d 0) then .error .value
  else
    let v := fun a => w a 0 / √(m a)
    .ok fun a => v a / √(∑ b, v b ^ 2)

end

/-! ## Beads at which the potential is evaluated -/

/-- The loop of L343-348: the numbers of the beads kept, the last one first; `p` is the path length, `v`
the potential of the last step. -/
noncomputable def keepLoop (p v : ℕ → ℝ) (maxms maxe : ℝ) : List ℕ → List ℕ × ℕ → List ℕ × ℕ
  | [], s => s
  | i :: is, (l, old) =>
    open Classical in
    if maxms < p i - p old ∨ maxe < |v i - v old| then keepLoop p v maxms maxe is (i :: l, i)
    else keepLoop p v maxms maxe is (l, old)

/-- The beads kept (L339-350), for `n` beads. -/
noncomputable def kept (p v : ℕ → ℝ) (maxms maxe : ℝ) (n : ℕ) : List ℕ :=
  let l := (keepLoop p v maxms maxe (List.range' 1 (n - 1)) ([0], 0)).1.reverse
  if n - 1 ∈ l then l else l ++ [n - 1]

/-- L355-358: at least three are needed. -/
noncomputable def keptChecked (p v : ℕ → ℝ) (maxms maxe : ℝ) (n : ℕ) : Except Err (List ℕ) :=
  if (kept p v maxms maxe n).length ≤ 2 then .error .value else .ok (kept p v maxms maxe n)

/-! ## Steps -/

section
variable {ι : Type} [Fintype ι] [DecidableEq ι]

/-- The matrix in band storage of a Newton or Lanczos step (L1617-1624): mass weighted, with `s` (1e-7) added
to the diagonal.  `H` is the Hessian of all the beads; that the band storage is this matrix is the subject
of C132. -/
noncomputable def weighted (m : ι → ℝ) (H : Matrix ι ι ℝ) (s : ℝ) : Matrix ι ι ℝ :=
  fun i j => H i j / (√(m i) * √(m j)) + if i = j then s else 0

/-- `np.multiply(f, m3 ** -0.5)` (L1629, L1634, L1682, L1766). -/
noncomputable def mw (m f : ι → ℝ) : ι → ℝ := fun i => f i / √(m i)

/-- `y` is what `invmul_banded` returns: a solution of the linear equations. -/
def Solves (A : Matrix ι ι ℝ) (f y : ι → ℝ) : Prop := A *ᵥ y = f

/-- The step of `NROptimizer` (L1617-1634) is `mw m y`. -/
def NewtonStep (m : ι → ℝ) (H : Matrix ι ι ℝ) (s : ℝ) (f x : ι → ℝ) : Prop :=
  ∃ y, Solves (weighted m H s) (mw m f) y ∧ x = mw m y

/-- The step of `LanczosOptimizer` (L1664-1766) before it is shortened; `d0` and `d1` are the lowest
eigenvalues of the matrix (`diag_banded`), and the rule for `alpha` and `lamb` is that of `nichols`
(`Verif.QN.shift`).  The option `mode` is not looked at. -/
def LanczosStep (_splitting : Bool) (m : ι → ℝ) (H : Matrix ι ι ℝ) (s d0 d1 : ℝ) (f x : ι → ℝ) : Prop :=
  ∃ y, Solves (weighted m H s - (shift d0 d1).2 • (1 : Matrix ι ι ℝ)) (mw m f) y ∧
    x = mw m ((shift d0 d1).1 • y)

/-- `np.amax(np.absolute(d_x))`; `mx` is that number. -/
def IsMax (x : ι → ℝ) (mx : ℝ) : Prop := (∀ i, |x i| ≤ mx) ∧ ∃ i, |x i| = mx

/-- The step is shortened to `big_step` (L1637-1642, L1769-1774). -/
noncomputable def shorten (big mx : ℝ) (x : ι → ℝ) : ι → ℝ :=
  open Classical in if big < mx then (big / mx) • x else x

end

/-! ## Convergence -/

/-- `exitstep` (L1113-1126): the numbers compared are the change of the potential per atom, the largest
force, the norm of the change of the forces and the largest displacement. -/
noncomputable def exits (tolE tolF tolX dE fmax df xmax : ℝ) : Prop :=
  |dE| ≤ tolE ∧ (fmax ≤ tolF ∨ df ≤ 1e-8) ∧ xmax ≤ tolX

end Verif.InstSteps
