import Verif.Tools.Ppi
import Mathlib.Algebra.BigOperators.Intervals

/-!
# The compiled sums of the scripts for perturbed path integrals

Model of the subroutines of `/repo/tools/f90/fortran.f90` that `energies_ppi.py` and
`heat_capacity_ppi.py` use instead of their own loops when the module has been compiled.
-/

namespace Verif.Ppi

open Finset Verif.Estim

variable {n N : ℕ}

/-- An array as python keeps it, `q[b, 3 * i + d]` (`energies_ppi.py` L146-152), counted from zero. -/
noncomputable def flat (q : Conf n N) : ℕ → ℕ → ℝ := fun b j =>
  if h : b < n + 1 ∧ j / 3 < N then q (⟨b, h.1⟩, ⟨j / 3, h.2⟩, ⟨j % 3, Nat.mod_lt _ (by decide)⟩) else 0

/-- The same array as the subroutine sees it, counted from one. -/
def one (A : ℕ → ℕ → ℝ) : ℕ → ℕ → ℝ := fun i j => A (i - 1) (j - 1)

/-- The masses, one for each atom, counted from one. -/
noncomputable def masses (m : Fin N → ℝ) : ℕ → ℝ := fun i => if h : i - 1 < N then m ⟨i - 1, h⟩ else 0

/-- `F2divM` (`tools/f90/fortran.f90` L1-28). -/
noncomputable def f2divM (F : ℕ → ℕ → ℝ) (mass : ℕ → ℝ) (nat nob : ℕ) : ℝ :=
  ∑ ib ∈ Icc 1 nob, ∑ ia ∈ Icc 1 nat,
    (F ib (3 * ia - 2) * F ib (3 * ia - 2) + F ib (3 * ia - 1) * F ib (3 * ia - 1)
      + F ib (3 * ia) * F ib (3 * ia)) / mass ia

/-- `findCentroidVirialKineticEnergy` (`tools/f90/fortran.f90` L33-71). -/
noncomputable def findCentroidVirial (A F : ℕ → ℕ → ℝ) (nat nob : ℕ) : ℝ :=
  (∑ ia ∈ Icc 1 nat, ∑ ic ∈ Icc 1 3,
    let xc := (∑ ib ∈ Icc 1 nob, A ib (ic + 3 * ia - 3)) / nob
    ∑ ib ∈ Icc 1 nob, (xc - A ib (ic + 3 * ia - 3)) * F ib (ic + 3 * ia - 3)) / (2 * nob)

/-- `findCoupling` (`tools/f90/fortran.f90` L76-109). -/
noncomputable def findCoupling (A : ℕ → ℕ → ℝ) (mass : ℕ → ℝ) (temperature : ℝ) (nat nob : ℕ) : ℝ :=
  -(∑ ia ∈ Icc 1 nat,
    ((∑ ib ∈ Icc 1 (nob - 1), ((A ib (3 * ia - 2) - A (ib + 1) (3 * ia - 2)) ^ 2
        + (A ib (3 * ia - 1) - A (ib + 1) (3 * ia - 1)) ^ 2 + (A ib (3 * ia) - A (ib + 1) (3 * ia)) ^ 2))
      + (A nob (3 * ia - 2) - A 1 (3 * ia - 2)) ^ 2 + (A nob (3 * ia - 1) - A 1 (3 * ia - 1)) ^ 2
      + (A nob (3 * ia) - A 1 (3 * ia)) ^ 2) * mass ia) * 0.5 * nob * temperature ^ 2

/-- `f2` of the compiled branch (`energies_ppi.py` L206-208; `heat_capacity_ppi.py` L185-187). -/
noncomputable def f2Fast (m : Fin N → ℝ) (x : Frame n N) : ℝ :=
  f2divM (one (flat x.f)) (masses m) N (n + 1)

/-- `KPa` of the compiled branch (`energies_ppi.py` L209-215, L220-221; `heat_capacity_ppi.py`
L188-197). -/
noncomputable def kPaFast (S : Setup N) (x : Frame n N) : ℝ :=
  findCoupling (one (flat x.q)) (masses S.m) S.temp N (n + 1) * (S.kb ^ 2 / S.hbar ^ 2)
    + 1.5 * ((n + 1 : ℕ) : ℝ) / S.beta * N

/-- `KVir` of the compiled branch (`energies_ppi.py` L216-218, L222): the forces are given where the
subroutine expects the positions, and the positions where it expects the forces. -/
noncomputable def kVirFast (S : Setup N) (x : Frame n N) : ℝ :=
  findCentroidVirial (one (flat x.f)) (one (flat x.q)) N (n + 1) + 1.5 / S.beta * N

/-- One frame is added with the compiled sums (`energies_ppi.py` L205-229; `heat_capacity_ppi.py`
L184-205). -/
noncomputable def Sums.addFast (S : Setup N) (s : Sums) (x : Frame n N) : Sums :=
  let F := f2Fast S.m x
  let K := kPaFast S x
  let V := kVirFast S x
  ⟨s.kpa + K, s.kvir + V, s.u + x.U, s.f2 + F, s.f2kpa + F * K, s.f2u + F * x.U,
    s.e2 + (K + x.U) ^ 2, s.f2e2 + F * (K + x.U) ^ 2⟩

/-- The loop of both scripts (`energies_ppi.py` L133-266; `heat_capacity_ppi.py` L126-241) with the
compiled sums. -/
noncomputable def loopFast {R : Type} (S : Setup N) (row : ℝ → Sums → ℝ → R) (ifr : ℕ) (time0 : ℝ)
    (s : Sums) : List (Frame n N) → List R
  | [] => []
  | x :: xs =>
      if ifr < S.skip then loopFast S row (ifr + 1) x.time s xs
      else
        let s' := s.addFast S x
        row (x.time - time0) s' (((ifr + 1 - S.skip : ℕ) : ℝ)) :: loopFast S row (ifr + 1) time0 s' xs

end Verif.Ppi
