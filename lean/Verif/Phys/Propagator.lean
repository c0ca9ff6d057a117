import Mathlib.Analysis.SpecialFunctions.Trigonometric.Basic
import Mathlib.Analysis.Real.Sqrt
import Mathlib.Algebra.BigOperators.Fin

/-!
# Propagation of the free ring polymer

Model of the propagators of `/repo/ipi/engine/normalmodes.py`, with exact real numbers.
-/

namespace Verif.Prop

open Real Finset

/-- The matrix of one mode. -/
structure Mat2 where
  pp : ℝ
  pq : ℝ
  qp : ℝ
  qq : ℝ

/-- The two propagators that work on the normal modes (`propagator`); the third, `bab`, works on
the beads. -/
inductive Variant where
  | exact
  | cayley
  deriving DecidableEq, Repr

/-- `get_prop_pq` and `get_o_prop_pq` (L481-520, L533-571) for one mode of frequency `ω` and mass
factor `fac`. -/
noncomputable def propPq (v : Variant) (ω fac dt : ℝ) : Mat2 :=
  match v with
  | .cayley =>
      let sk := √fac
      let square := (ω * dt / 2) ^ 2
      { pp := (1 - square) / (1 + square)
        qq := (1 - square) / (1 + square)
        pq := -(4 * square / dt * sk) / (1 + square)
        qp := dt / sk / (1 + square) }
  | .exact =>
      let sk := √fac
      let x := ω * dt / sk
      { pp := cos x
        qq := cos x
        pq := -sin x * ω * sk
        qp := sin x / (ω * sk) }

/-- `get_prop_pq_ms` and `get_o_prop_pq_ms` (L522-531, L573-583): the masses are put in. -/
noncomputable def withMass (P : Mat2) (m : ℝ) : Mat2 :=
  { P with pq := P.pq * m, qp := P.qp / m }

/-- The matrix applied to momentum and position (L889-890). -/
def Mat2.act (P : Mat2) (p q : ℝ) : ℝ × ℝ := (p * P.pp + q * P.pq, p * P.qp + q * P.qq)

/-- Momenta and positions of the normal modes: mode, coordinate. -/
structure Modes where
  p : ℕ → ℕ → ℝ
  q : ℕ → ℕ → ℝ

/-- What the propagation needs to know. -/
structure Par where
  nbeads : ℕ
  /-- Number of coordinates, three per atom. -/
  ncoord : ℕ
  m : ℕ → ℝ
  /-- Does the coordinate belong to an open path? -/
  isOpen : ℕ → Bool
  ω : ℕ → ℝ
  oω : ℕ → ℝ
  fac : ℕ → ℝ
  ofac : ℕ → ℝ
  variant : Variant

/-- The matrix used for mode `k` of coordinate `a`. -/
noncomputable def Par.mat (g : Par) (dt : ℝ) (k a : ℕ) : Mat2 :=
  if g.isOpen a then withMass (propPq g.variant (g.oω k) (g.ofac k) dt) (g.m a)
  else withMass (propPq g.variant (g.ω k) (g.fac k) dt) (g.m a)

/-- `free_qstep` (L825-918) for the exact and the Cayley propagator: nothing with one bead, else
all modes but the centroid. -/
noncomputable def freeQstep (g : Par) (dt : ℝ) (s : Modes) : Modes :=
  if g.nbeads = 1 then s
  else
    { p := fun k a => if k = 0 then s.p k a else ((g.mat dt k a).act (s.p k a) (s.q k a)).1
      q := fun k a => if k = 0 then s.q k a else ((g.mat dt k a).act (s.p k a) (s.q k a)).2 }

/-- `NVEIntegrator.qcstep` (`dynamics.py` L440-443). -/
noncomputable def qcstep (g : Par) (dt : ℝ) (s : Modes) : Modes :=
  { s with q := fun k a => if k = 0 then s.q k a + s.p k a * (dt / g.m a) else s.q k a }

/-- `get_kin` (L920-945): the kinetic energy, with `nm_factor` for every coordinate. -/
noncomputable def kin (g : Par) (s : Modes) : ℝ :=
  ∑ k ∈ range g.nbeads, 0.5 * (∑ a ∈ range g.ncoord, (s.p k a / √(g.m a)) ^ 2) / g.fac k

/-- The potential of `get_vspring_and_fspring` (L731-795) without bosons: zero with one bead, else
the closed value with a correction for the coordinates of open paths. -/
noncomputable def vspring (g : Par) (s : Modes) : ℝ :=
  if g.nbeads = 1 then 0
  else
    (∑ k ∈ range g.nbeads, g.ω k ^ 2 * ∑ a ∈ range g.ncoord, (s.q k a * √(g.m a)) ^ 2
      + ∑ a ∈ range g.ncoord, (if g.isOpen a then
          ∑ k ∈ range g.nbeads, g.m a * (g.oω k ^ 2 - g.ω k ^ 2) * s.q k a ^ 2 else 0)) * 0.5

end Verif.Prop
