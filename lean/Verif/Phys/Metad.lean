import Mathlib.Data.Real.Basic
import Mathlib.Algebra.BigOperators.Group.List.Basic

/-!
# Metadynamics bookkeeping

Models `MetaDyn.step` (`ipi/engine/smotion/metad.py` 62-101), `FFPlumed.mtd_update`
(`ipi/engine/forcefields.py` 1062-1104) and the part of the conserved quantity they touch:
`Ensemble.get_econs` (`ipi/engine/ensembles.py` 254-266, `bias.pot + eens`), `Forces.pot`.

PLUMED is represented by any state `σ`, the bias energy `B` it defines at every configuration, and
any way `upd` of changing the state at a configuration (hills, well-tempered or not, every step or
every few steps).  One system is modelled; the check that the force field has `mtd_update` is left
out.
-/

namespace Verif.Metad

variable {σ P : Type}

/-- What PLUMED does. -/
structure Plumed (σ P : Type) where
  B : σ → P → ℝ
  upd : σ → P → σ

/-- A bias component (`ForceComponent`): the force field, the weight (`bweights[ik]`, piped into the
component, `ensembles.py` 190-198), the sum of its multiple time step weights, the configurations of
its beads, and the cached energies `_ufvx._value[0]`, one per bead of the component. -/
structure Comp (P : Type) where
  ff : ℕ
  weight : ℝ
  mts : ℝ
  pts : List P
  u : List ℝ

/-- A system: number of beads, the components of `ensemble.bias`, `ensemble.eens`, and the states of
the PLUMED force fields. -/
structure Sys (σ P : Type) where
  nb : ℕ
  comps : List (Comp P)
  eens : ℝ
  st : ℕ → σ

/-- `FFPlumed.mtd_update`: the work is the bias before minus the bias after at the position given,
zero if `compute_work` is not set. -/
def work (pl : Plumed σ P) (computeWork : Bool) (s : σ) (qc : P) : ℝ :=
  if computeWork then pl.B s qc - pl.B (pl.upd s qc) qc else 0

/-- The correction of the cached energies (`metad.py` 93-101); subtracting a zero work does nothing,
so the test `mtd_work != 0` is not needed. -/
def correct (k : ℕ) (w : ℝ) (c : Comp P) : Comp P :=
  if c.ff = k then { c with u := c.u.map (· - w) } else c

/-- One round of the loop over `bcomp` (`metad.py` 67-101), for the component with force field `k`
and weight `weight`. -/
noncomputable def deposit (pl : Plumed σ P) (computeWork : Bool) (metaff : List ℕ) (qc : P) (s : Sys σ P) (k : ℕ)
    (weight : ℝ) : Sys σ P :=
  open scoped Classical in
  if k ∉ metaff then s
  else if weight = 0 then s
  else
    let w := work pl computeWork (s.st k) qc
    { s with
      st := fun j => if j = k then pl.upd (s.st k) qc else s.st j
      eens := s.eens + w * s.nb
      comps := s.comps.map (correct k w) }

/-- `MetaDyn.step` for one system.  The force fields and weights do not change in the loop. -/
noncomputable def step (pl : Plumed σ P) (computeWork : Bool) (metaff : List ℕ) (qc : P) (s : Sys σ P) : Sys σ P :=
  (s.comps.map fun c => (c.ff, c.weight)).foldl (fun s kw => deposit pl computeWork metaff qc s kw.1 kw.2) s

/-- `Forces.pot` of the bias (`forces.py`, `pot_combine`): every component is expanded to the beads of
the system, which multiplies the sum of its energies by `nb / nc` (C35). -/
noncomputable def pot (s : Sys σ P) : ℝ :=
  (s.comps.map fun c => c.weight * c.mts * ((s.nb : ℝ) / c.u.length * c.u.sum)).sum

/-- The part of `econs` that depends on the bias. -/
noncomputable def econs (s : Sys σ P) : ℝ := pot s + s.eens

end Verif.Metad
