import Mathlib.Data.Real.Basic
import Mathlib.Analysis.Real.Sqrt
import Mathlib.Analysis.SpecialFunctions.Pow.Real
import Mathlib.Analysis.SpecialFunctions.Exp
import Mathlib.LinearAlgebra.Matrix.Determinant.Basic

/-!
# The pair potentials of the Fortran driver

Model of `/repo/drivers/f90/distance.f90` (minimum image, neighbour lists), of the neighbour lists
of `compute_potential` in `/repo/drivers/f90/driver.f90` (L1136-1179) and of the potentials of
Lennard-Jones (`/repo/drivers/f90/LJ.f90`) and of Silvera and Goldman (`/repo/drivers/f90/SG.f90`).
Numbers are exact reals; atoms are numbered from zero; constants written in single precision are taken
as they are written.  The parts of `driver.f90` that read messages are not modelled.
-/

namespace Verif.F90

open Matrix

/-- A vector. -/
abbrev V3 := Fin 3 → ℝ

/-- A matrix. -/
abbrev M3 := Matrix (Fin 3) (Fin 3) ℝ

/-! ### `distance.f90` -/

/-- The intrinsic function `DNINT`: the nearest whole number, away from zero for halves. -/
noncomputable def dnint (x : ℝ) : ℤ := if 0 ≤ x then ⌊x + 1 / 2⌋ else -⌊-x + 1 / 2⌋

/-- `CELL_VOLUME` (`distance.f90` L34-43). -/
def cellVolume (m : M3) : ℝ :=
  |m 0 0 * (m 1 1 * m 2 2 - m 2 1 * m 1 2) - m 0 1 * (m 1 0 * m 2 2 - m 2 0 * m 1 2)
    + m 0 2 * (m 1 0 * m 2 1 - m 2 0 * m 1 1)|

/-- `vector_separation` (L45-84): the vector `rij`. -/
noncomputable def vectorSeparation (h ih : M3) (ri rj : V3) : V3 :=
  let s := ih *ᵥ (ri - rj)
  h *ᵥ fun k => s k - dnint (s k)

/-- `separation` (L86-124): the square of the distance. -/
noncomputable def separation (h ih : M3) (ri rj : V3) : ℝ :=
  let rij := vectorSeparation h ih ri rj
  rij ⬝ᵥ rij

/-- `nearest_neighbours` (L126-181): `index_list` and `n_list` (the part of it that is used).
`index_list` of the last atom, which is not used, is left out. -/
noncomputable def nearestNeighbours (rn : ℝ) (natoms : ℕ) (atoms : ℕ → V3) (h ih : M3) :
    List ℕ × List ℕ :=
  (List.range (natoms - 1)).foldl
    (fun acc i =>
      let nl := acc.2 ++ (List.range' (i + 1) (natoms - 1 - i)).filter
        fun j => decide (separation h ih (atoms i) (atoms j) < rn * rn)
      (acc.1 ++ [nl.length], nl))
    ([], [])

/-! ### The loop over the neighbours -/

/-- The pairs that `LJ_getall` goes through (`LJ.f90` L184-190, L206-207), in order: `start` is the
entry of `index_list` for the atom before. -/
def pairs (natoms : ℕ) (lists : List ℕ × List ℕ) : List (ℕ × ℕ) :=
  (List.range (natoms - 1)).flatMap fun i =>
    ((lists.2.take (lists.1.getD i 0)).drop (if i = 0 then 0 else lists.1.getD (i - 1) 0)).map
      fun j => (i, j)

/-- Potential, forces and virial. -/
structure Res where
  pot : ℝ
  forces : ℕ → V3
  virial : M3

/-- The body of the loop (L189-204): `pair i j r` gives the potential and the force of a pair;
only the upper triangle of the virial is computed. -/
noncomputable def addPair (pair : ℕ → ℕ → ℝ → ℝ × ℝ) (rc : ℝ) (atoms : ℕ → V3) (h ih : M3) (s : Res)
    (ij : ℕ × ℕ) : Res :=
  let rij := vectorSeparation h ih (atoms ij.1) (atoms ij.2)
  let r2 := rij ⬝ᵥ rij
  if r2 < rc * rc then
    let p := pair ij.1 ij.2 (√r2)
    let fij : V3 := fun k => p.2 * rij k / √r2
    { pot := s.pot + p.1
      forces := fun a =>
        let f1 := if a = ij.1 then s.forces a + fij else s.forces a
        if a = ij.2 then f1 - fij else f1
      virial := Matrix.of fun k l => if k ≤ l then s.virial k l + fij k * rij l else s.virial k l }
  else s

/-- `LJ_getall` (L143-219) and the other routines of this form, from zero (`driver.f90` L1164-1166);
`tail` are the corrections `pot_lr` and `vir_lr` for the cut-off and the volume. -/
noncomputable def getall (pair : ℕ → ℕ → ℝ → ℝ × ℝ) (tail : ℝ → ℝ → ℝ × ℝ) (vol : M3 → ℝ) (rc : ℝ)
    (natoms : ℕ) (atoms : ℕ → V3) (h ih : M3) (lists : List ℕ × List ℕ) : Res :=
  let s := (pairs natoms lists).foldl (addPair pair rc atoms h ih) ⟨0, fun _ _ => 0, 0⟩
  let t := tail rc (vol h)
  ⟨s.pot + t.1, s.forces, Matrix.of fun k l => if k = l then s.virial k l + t.2 else s.virial k l⟩

/-! ### Lennard-Jones -/

/-- `LJ_functions` (`LJ.f90` L53-78). -/
noncomputable def ljFunctions (sigma eps r : ℝ) : ℝ × ℝ :=
  let a := sigma / r
  let b := a * a * a
  let s6 := b * b
  (4 * eps * (s6 * (s6 - 1)), 24 * eps * (s6 * (2 * s6 - 1) / r))

/-- `four_tau_by_3` (L47). -/
noncomputable def fourTauBy3 : ℝ := 8 * Real.pi / 3

/-- `LJ_longrange` (L105-141). -/
noncomputable def ljLongrange (sigma eps : ℝ) (natoms : ℕ) (rc volume : ℝ) : ℝ × ℝ :=
  let sbyr := sigma / rc
  let s3 := sbyr * sbyr * sbyr
  let s6 := s3 * s3
  let prefactor := fourTauBy3 * natoms * natoms * eps / volume * s3 * sigma * sigma * sigma
  let pot := prefactor * (s6 / 3 - 1)
  (pot, prefactor * (s6 - 1) + pot)

/-- `LJ_getall` (L143-219). -/
noncomputable def ljGetall (sigma eps rc : ℝ) (natoms : ℕ) (atoms : ℕ → V3) (h ih : M3)
    (lists : List ℕ × List ℕ) : Res :=
  getall (fun _ _ => ljFunctions sigma eps) (ljLongrange sigma eps natoms) cellVolume rc natoms atoms h ih lists

/-- The factor of `sigma` and `eps` for a pair in `LJMix_getall` (L259-271): both tests are about the
first atom of the pair. -/
noncomputable def mixFactor (ntype2 i : ℕ) : ℝ :=
  let a : ℝ := 1
  let b := if i < ntype2 then 0.6 else a
  let c := if i < ntype2 then b * 0.6 else b
  √c

/-- `LJMix_getall` (L221-292). -/
noncomputable def ljmixGetall (ntype2 : ℕ) (sigma eps rc : ℝ) (natoms : ℕ) (atoms : ℕ → V3) (h ih : M3)
    (lists : List ℕ × List ℕ) : Res :=
  getall (fun i _ => ljFunctions (sigma * mixFactor ntype2 i) (eps * mixFactor ntype2 i))
    (ljLongrange (sigma * (1 - ntype2 * 0.4 / natoms)) (eps * (1 - ntype2 * 0.4 / natoms)) natoms)
    cellVolume rc natoms atoms h ih lists

/-! ### Silvera and Goldman -/

/-- `f_c` (`SG.f90` L74-100), with `rc_exp = 8.32`. -/
noncomputable def sgDamp (r : ℝ) : ℝ × ℝ :=
  if 8.32 < r then (1, 0)
  else
    let d := 8.32 / r - 1
    let f := Real.exp (-d ^ 2)
    (f, 2 * d * 8.32 * f / (r * r))

/-- `exp_func` (L102-118). -/
noncomputable def sgExp (r : ℝ) : ℝ × ℝ :=
  let p := Real.exp (1.713 - r * (1.5671 + 0.00993 * r))
  (p, (1.5671 + 0.00993 * 2 * r) * p)

/-- `SG_functions` (L120-152). -/
noncomputable def sgFunctions (r : ℝ) : ℝ × ℝ :=
  let onr3 := 1 / (r * r * r)
  let onr6 := onr3 * onr3
  let onr9 := onr6 * onr3
  let onr10 := onr9 / r
  let e := sgExp r
  let f := sgDamp r
  let disp := -(12.14 * onr6 + 215.2 * onr9 * r - 143.1 * onr9 + 4813.9 * onr10)
  let dispDiff := 12.14 * 6 * onr6 / r + 215.2 * 8 * onr9 - 143.1 * 9 * onr10 + 4813.9 * 10 * onr10 / r
  (e.1 + disp * f.1, e.2 - dispDiff * f.1 - disp * f.2)

/-- `SG_longrange` (L177-218), with `tau = 2 π`. -/
noncomputable def sgLongrange (natoms : ℕ) (rc volume : ℝ) : ℝ × ℝ :=
  let onr3 := 1 / (rc * rc * rc)
  let onr6 := onr3 * onr3
  let onr5 := onr6 * rc
  let onr7 := onr6 / rc
  let prefactor := 2 * Real.pi * natoms * natoms / volume
  let pot := prefactor * (-(12.14 / 3) * onr3 - 215.2 / 5 * onr5 + 143.1 / 6 * onr6 - 4813.9 / 7 * onr7)
  (pot, prefactor * (-12.14 * onr3 - 215.2 * onr5 + 143.1 * onr6 - 4813.9 * onr7) / 3 + pot)

/-- `SG_getall` (L220-277): the volume is that of an upper triangular cell. -/
noncomputable def sgGetall (rc : ℝ) (natoms : ℕ) (atoms : ℕ → V3) (h ih : M3)
    (lists : List ℕ × List ℕ) : Res :=
  getall (fun _ _ => sgFunctions) (sgLongrange natoms) (fun h => h 0 0 * h 1 1 * h 2 2) rc natoms atoms h ih lists

/-! ### The neighbour lists of the driver -/

/-- What the driver keeps between two calculations. -/
structure Nb where
  lists : List ℕ × List ℕ
  last : ℕ → V3
  rn : ℝ
  initVolume : ℝ
  initRc : ℝ

/-- The first calculation (`driver.f90` L1137-1147). -/
noncomputable def initNb (rn rc : ℝ) (natoms : ℕ) (atoms : ℕ → V3) (h ih : M3) : Nb :=
  ⟨nearestNeighbours rn natoms atoms h ih, atoms, rn, cellVolume h, rc⟩

/-- The cut-off for the volume of now (L1150). -/
noncomputable def scaledRc (nb : Nb) (h : M3) : ℝ :=
  nb.initRc * (cellVolume h / nb.initVolume) ^ (1 / 3 : ℝ)

open scoped Classical in
/-- The lists are made again if an atom has moved (L1149-1161); the radius is changed after that. -/
noncomputable def refresh (nb : Nb) (natoms : ℕ) (atoms : ℕ → V3) (h ih : M3) : Nb :=
  let rc := scaledRc nb h
  if ∃ i < natoms, (nb.rn - rc) * (nb.rn - rc) < 4 * separation h ih (atoms i) (nb.last i) then
    { nb with lists := nearestNeighbours nb.rn natoms atoms h ih, last := atoms, rn := 1.2 * rc }
  else nb

/-- A structure sent to the driver: cell, inverse cell and positions. -/
structure Str where
  h : M3
  ih : M3
  atoms : ℕ → V3

/-- The state after the structures of a history have been computed, for the options `rn` and `rc`. -/
noncomputable def runNb (rn rc : ℝ) (natoms : ℕ) : List Str → Option Nb
  | [] => none
  | s :: l => some (l.foldl (fun nb s => refresh nb natoms s.atoms s.h s.ih)
      (refresh (initNb rn rc natoms s.atoms s.h s.ih) natoms s.atoms s.h s.ih))

end Verif.F90
