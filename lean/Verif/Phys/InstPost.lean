import Verif.Phys.Instanton
import Mathlib.Analysis.SpecialFunctions.Log.Basic
import Mathlib.Analysis.SpecialFunctions.Trigonometric.Basic
import Mathlib.LinearAlgebra.Matrix.Determinant.Basic

/-!
# Rates and splittings from instantons

Model of the post-processing of instanton calculations, `/repo/ipi/utils/tools/instanton_postproc.py`, and of
`SpringMapper.spring_hessian` (`/repo/ipi/engine/motion/instanton.py` L809-868) in the modes used there, with
exact real numbers.  Units are atomic (`hbar = kb = 1`).  `X` are the coordinates of a bead.
-/

namespace Verif.InstPost

open Finset

/-! ## The whole ring polymer from its half -/

section
variable {A : Type}

/-- `get_double` (L27-44), positions: `np.concatenate((q0, np.flipud(q0)))`. -/
def doubleQ (n0 : ℕ) (q : ℕ → A) (i : ℕ) : A := if i < n0 then q i else q (n0 - 1 - (i - n0))

/-- `get_double`, Hessian: the block of beads `i`, `j`, from the blocks `h` of the half. -/
def doubleH [Zero A] (n0 : ℕ) (h : ℕ → ℕ → A) (i j : ℕ) : A :=
  if i < n0 ∧ j < n0 then h i j
  else if i = j then h (n0 - 1 - (i - n0)) (n0 - 1 - (i - n0)) else 0

/-- `red2comp` without coefficients (L237, L263 and instools.py L156-171): blocks on the diagonal. -/
def blocks [Zero A] (h : ℕ → A) (i j : ℕ) : A := if i = j then h i else 0

end

section
variable {X : Type} [Fintype X]

/-- `np.dot(m3[0] * dq, dq)`. -/
noncomputable def dist2 (m : X → ℝ) (a b : X → ℝ) : ℝ := ∑ c, m c * (b c - a c) * (b c - a c)

/-- `spring_pot` (L47-52). -/
noncomputable def springPot (n : ℕ) (q : ℕ → X → ℝ) (ω2 : ℝ) (m : X → ℝ) : ℝ :=
  ∑ i ∈ range (n - 1), ω2 * 0.5 * dist2 m (q i) (q (i + 1))

/-- The sum of squared displacements of consecutive beads of the linear polymer:
`np.sum(beads.m3[1:, :] * (beads.q[1:, :] - beads.q[:-1, :]) ** 2)` (L383, L443). -/
noncomputable def path2 (n : ℕ) (q : ℕ → X → ℝ) (m : X → ℝ) : ℝ :=
  ∑ i ∈ range (n - 1), dist2 m (q i) (q (i + 1))

/-- `BN` of a rate (L383). -/
noncomputable def BN (n0 : ℕ) (q : ℕ → X → ℝ) (m : X → ℝ) : ℝ := 2 * path2 n0 q m

/-- `action1` of a rate (L385-387), from the potentials `pots` of the `n0` beads. -/
noncomputable def action1 (n0 : ℕ) (pots : ℕ → ℝ) (V0 T : ℝ) : ℝ :=
  (2 * ∑ i ∈ range n0, pots i - (2 * n0 : ℕ) * V0) * 1 / (T * (2 * n0 : ℕ))

/-- `action2` of a rate (L388), with `omega2 = (temp * nbeads) ** 2` (L241). -/
noncomputable def action2 (n0 : ℕ) (q : ℕ → X → ℝ) (m : X → ℝ) (T : ℝ) : ℝ :=
  springPot (2 * n0) (doubleQ n0 q) ((T * (2 * n0 : ℕ)) ^ 2) m / (T * (2 * n0 : ℕ))

end

/-- `spring_hessian` (instanton.py L809-868) with coefficients one, as a function of the beads: on the
diagonal, next to it, and for a ring in the corners.  Nothing for one bead. -/
def lapRing (full : Bool) (n i j : ℕ) : ℝ :=
  if n = 1 then 0
  else (if i = j then 2 else 0) + (if j = i + 1 then -1 else 0) + (if i = j + 1 then -1 else 0)
    + (if full ∧ i = 0 ∧ j = n - 1 then -1 else 0) + (if full ∧ j = 0 ∧ i = n - 1 then -1 else 0)

/-! ## Partition functions -/

/-- A frequency of the ring polymer times `betaP` (L89-97), from the eigenvalue `w0`. -/
noncomputable def ringTerm (betaP : ℝ) (N : ℕ) (w0 : ℝ) (k : ℕ) : ℝ :=
  betaP * √(4 / betaP ^ 2 * Real.sin (k * Real.pi / N) ^ 2 + w0)

/-- `get_rp_freq` with `mode="rate"` (L80-99), for eigenvalues that are not negative; otherwise it exits. -/
noncomputable def rpRate {D : ℕ} (betaP : ℝ) (N : ℕ) (w0 : Fin D → ℝ) : ℝ :=
  open Classical in
  ∑ n, ∑ k ∈ range N, if w0 n = 0 ∧ k = 0 then 0 else Real.log (ringTerm betaP N (w0 n) k)

/-- `get_rp_freq` with `mode="splitting"` (L101-114) and the sum of logarithms (L433), for one eigenvalue. -/
noncomputable def rpSplit (betaP : ℝ) (N : ℕ) (w0 : ℝ) : ℝ :=
  ∑ k ∈ range N, Real.log √(4 / betaP ^ 2 * Real.sin ((k + 1) * Real.pi / (2 * N + 2)) ^ 2 + w0)

/-- `react` (L422-433): the numbers read from the file are squared, with their sign. -/
noncomputable def react {D : ℕ} (betaP : ℝ) (N : ℕ) (file : Fin D → ℝ) : ℝ :=
  open Classical in
  ∑ n, rpSplit betaP N ((if file n < 0 then -1 else if file n = 0 then 0 else 1) * file n ^ 2)

/-- What the case `reactant` writes to `eigenvalues_reactant.dat` (L313-317): as many zeros as modes were
removed, and the eigenvalues. -/
def eigenFile (nzeros : ℕ) (d : List ℝ) : List ℝ := List.replicate nzeros 0 ++ d

/-- The number of zero modes that `asr` stands for (L158-163); it is not changed when `asr` is set to `none`
for a splitting (L268-272). -/
def nzerosOf : String → ℕ
  | "poly" => 6
  | "crystal" => 3
  | _ => 0

/-- `save_frequencies` (L120-130), the number of rows; `removed` modes were taken away by `clean_hessian`. -/
def freqRows (nzeros removed modes : ℕ) : ℕ := nzeros + (modes - removed)

/-- `logQvib` of an instanton (L373-379), from the eigenvalues that `clean_hessian` leaves. -/
noncomputable def logQvib (betaP : ℝ) (N nzeros : ℕ) (d : List ℝ) : ℝ :=
  -((d.eraseIdx 1).map fun x => Real.log (betaP * √|x|)).sum + nzeros * Real.log N + Real.log N

/-- `inst` of a splitting (L446). -/
noncomputable def instSplit (d : List ℝ) : ℝ := ((d.eraseIdx 1).map fun x => Real.log √|x|).sum

/-- `logQvib` of a transition state (L332-334). -/
noncomputable def logQvibTS (beta : ℝ) (d : List ℝ) : ℝ :=
  -((d.eraseIdx 0).map fun x => Real.log (2 * Real.sinh (beta * √x / 2))).sum

/-- `Qrot` of a reactant or transition state (L305, L328). -/
noncomputable def qrot (beta detI : ℝ) : ℝ := √(8 * Real.pi * detI / beta ^ 3)

/-- `Qrot` of an instanton (L356-357). -/
noncomputable def qrotInst (betaP detI : ℝ) (N : ℕ) : ℝ := √(8 * Real.pi * detI / betaP ^ 3) / (N : ℝ) ^ 3

end Verif.InstPost
