import Mathlib.Analysis.SpecialFunctions.Exp
import Mathlib.Algebra.BigOperators.Field

/-!
# Reweighting with a committee of potentials

Model of `/repo/tools/py/committee-reweight.py`, with exact real numbers. `F` is the number of frames,
`M` the number of potentials, `K` the number of columns of observables. Not modelled: the text of the
files and of the table that is printed.
-/

namespace Verif.Reweight

open Finset

variable {F M K : ℕ}

/-- The mean over the potentials in every frame, `np.mean(pot, axis=1)`. -/
noncomputable def barV (pot : Fin F → Fin M → ℝ) (t : Fin F) : ℝ := (∑ i, pot t i) / M

/-- `direct_reweight`: the weights before and after they are normalised (L40-46). -/
noncomputable def rawW (kbT : ℝ) (pot : Fin F → Fin M → ℝ) (t : Fin F) (i : Fin M) : ℝ :=
  Real.exp (-(1 / kbT) * (pot t i - barV pot t))

/-- The weights (L44-46). -/
noncomputable def weight (kbT : ℝ) (pot : Fin F → Fin M → ℝ) (t : Fin F) (i : Fin M) : ℝ :=
  rawW kbT pot t i / ∑ s, rawW kbT pot s i

/-- `direct_reweight` (L8-49): the average of observable `j` for potential `i`. -/
noncomputable def direct (kbT : ℝ) (pot : Fin F → Fin M → ℝ) (obs : Fin F → Fin K → ℝ)
    (j : Fin K) (i : Fin M) : ℝ := ∑ t, obs t j * weight kbT pot t i

/-- The matrix `h` of `CEA` (L87). -/
noncomputable def hM (kbT : ℝ) (pot : Fin F → Fin M → ℝ) (t : Fin F) (i : Fin M) : ℝ :=
  1 / kbT * (pot t i - barV pot t)

/-- The mean over frames of a column, `np.mean(…, axis=0)`. -/
noncomputable def fmean {N : ℕ} (x : Fin F → Fin N → ℝ) (j : Fin N) : ℝ := (∑ t, x t j) / F

/-- `CEA` (L52-99). -/
noncomputable def cea (kbT : ℝ) (pot : Fin F → Fin M → ℝ) (obs : Fin F → Fin K → ℝ)
    (j : Fin K) (i : Fin M) : ℝ :=
  fmean obs j - (∑ t, obs t j * hM kbT pot t i) / F + fmean obs j * fmean (hM kbT pot) i

/-- The mean of a vector. -/
noncomputable def vmean {N : ℕ} (x : Fin N → ℝ) : ℝ := (∑ i, x i) / N

/-- `np.var(x, ddof=…)`. -/
noncomputable def var (ddof : ℝ) {N : ℕ} (x : Fin N → ℝ) : ℝ :=
  (∑ i, (x i - vmean x) ^ 2) / (N - ddof)

/-- The numbers `uncertainty_CEA_multiple_models` returns. -/
structure Multi where
  mean : ℝ
  a : ℝ
  aV : ℝ
  total : ℝ

/-- `uncertainty_CEA_multiple_models` (L102-133). `CEA` is called with the observables in the place of the
potentials and the potentials in that of the observables (L127), so that the matrix has a row for every
potential and a column for every observable. -/
noncomputable def multi (kbT : ℝ) (pot : Fin F → Fin M → ℝ) (obs : Fin F → Fin K → ℝ) : Multi :=
  let c := fun j => var 1 fun i => cea kbT obs pot j i
  let sa := var 1 (fmean obs)
  let sv := vmean c
  { mean := vmean (fmean obs)
    a := sa
    aV := sv
    total := (M * (K - 1) : ℝ) / (M * K - 1) * sa + ((M - 1) * K : ℝ) / (M * K - 1) * sv }

/-- Ways to fail. -/
inductive Err
  | unbound
  | zeroStride
  | frames
deriving DecidableEq, Repr

/-- Every `n`-th element, `x[::n]`. -/
def every {α : Type} (n : ℕ) (l : List α) : List α :=
  (List.range ((l.length + n - 1) / n)).filterMap fun k => l[k * n]?

/-- How `commitee_reweight` takes frames from the two files (L168-180) before they are compared: with a
negative stride the variable `potentials` is never set. -/
def frames {α β : Type} (pot : List α) (obs : List β) (stride : ℤ) : Except Err (List α × List β) :=
  if 0 < stride then
    let p := every stride.toNat pot
    if p.length = obs.length then .ok (p, obs) else .error .frames
  else if stride < 0 then .error .unbound
  else .error .zeroStride

end Verif.Reweight
