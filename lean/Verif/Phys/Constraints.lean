import Verif.Phys.NormalModes

/-!
# Constraints on the momenta

Model of `pconstraints` (`/repo/ipi/engine/motion/dynamics.py` L364-397) and of the removal of the
centroid momenta in `NVTCCIntegrator.step` (L581-610), with exact real numbers.  Columns of the
arrays are indexed by the atom and the direction.
-/

namespace Verif.Pcon

open Finset Verif.Nm

/-- What does not change: masses, atoms with open paths, mass factors of the modes for closed and for
open paths (`normalmodes.py` `nm_factor`, `o_nm_factor`). -/
structure Par (N : ℕ) where
  m : Fin N → ℝ
  op : Fin N → Bool
  f : ℕ → ℝ
  fo : ℕ → ℝ

/-- Momenta of the beads and the energy accumulated by the ensemble. -/
structure St (n N : ℕ) where
  p : Fin n → Fin N → Fin 3 → ℝ
  eens : ℝ

variable {n N : ℕ}

/-- The transformation matrix of an atom (`nmtransform.py` L182-227). -/
noncomputable def Par.mat (g : Par N) (n : ℕ) (a : Fin N) : Matrix (Fin n) (Fin n) ℝ :=
  if g.op a then mkONm n else mkNm n

/-- `nm.pnm` from the momenta of the beads. -/
noncomputable def Par.toNm (g : Par N) (p : Fin n → Fin N → Fin 3 → ℝ) : Fin n → Fin N → Fin 3 → ℝ :=
  fun k a d => ∑ b, g.mat n a k b * p b a d

/-- The momenta of the beads from `nm.pnm`. -/
noncomputable def Par.toBeads (g : Par N) (p : Fin n → Fin N → Fin 3 → ℝ) : Fin n → Fin N → Fin 3 → ℝ :=
  fun b a d => ∑ k, g.mat n a k b * p k a d

/-- `get_dynm3` (`normalmodes.py` L717-729). -/
noncomputable def Par.dynm3 (g : Par N) (k : Fin n) (a : Fin N) : ℝ :=
  if g.op a = true ∧ 0 < (k : ℕ) then g.m a * g.fo k else g.m a * g.f k

/-- `get_kin` (`normalmodes.py` L920-943). -/
noncomputable def Par.kin (g : Par N) (p : Fin n → Fin N → Fin 3 → ℝ) : ℝ :=
  ∑ k : Fin n, (1 / 2 * ∑ a, ∑ d, (g.toNm p k a d / √(g.m a)) ^ 2) / g.f k

/-- The part of the conserved quantity that constraints can change (`ensembles.py` L254-266). -/
noncomputable def Par.econs (g : Par N) (s : St n N) : ℝ := g.kin s.p + s.eens

/-- `beads[0].M`. -/
def Par.M (g : Par N) : ℝ := ∑ a, g.m a

/-- `vcom` (L385). -/
noncomputable def Par.vcom (g : Par N) (p : Fin n → Fin N → Fin 3 → ℝ) (d : Fin 3) : ℝ :=
  (∑ b, ∑ a, p b a d) / (g.M * n)

/-- The removal of the velocity of the centre of mass (L378-388). -/
noncomputable def Par.fixcom (g : Par N) (s : St n N) : St n N where
  p := fun b a d => s.p b a d - g.m a * g.vcom s.p d
  eens := s.eens + (∑ d, g.vcom s.p d ^ 2) * (1 / 2) * (g.M * n)

/-- The removal of the momenta of fixed degrees of freedom (L391-397): a list of columns, as given.
Entries of the list that occur twice are summed twice, as numpy does.  Negative indices are left
out. -/
noncomputable def Par.fixatoms (g : Par N) (dofs : List (Fin N × Fin 3)) (s : St n N) : St n N :=
  if dofs = [] then s
  else
    { p := g.toBeads (fun k a d => if (a, d) ∈ dofs then 0 else g.toNm s.p k a d)
      eens := s.eens + 1 / 2 * (dofs.map fun c =>
        ∑ k, g.toNm s.p k c.1 c.2 ^ 2 / g.dynm3 k c.1).sum }

/-- `pconstraints` (L364-397). -/
noncomputable def Par.pconstraints (g : Par N) (com : Bool) (dofs : List (Fin N × Fin 3)) (s : St n N) :
    St n N :=
  g.fixatoms dofs (if com then g.fixcom s else s)

/-- The removal of the momenta of the centroids in `NVTCCIntegrator.step` (L587-590, L606-609). -/
noncomputable def Par.fixCentroid (g : Par N) (h : 0 < n) (s : St n N) : St n N where
  p := g.toBeads (fun k a d => if (k : ℕ) = 0 then 0 else g.toNm s.p k a d)
  eens := s.eens + 1 / 2 * ∑ a, ∑ d, g.toNm s.p ⟨0, h⟩ a d * (g.toNm s.p ⟨0, h⟩ a d / g.dynm3 (⟨0, h⟩ : Fin n) a)

end Verif.Pcon
