import Mathlib.Algebra.Field.Basic
import Mathlib.Algebra.BigOperators.Group.List.Basic

/-!
# Time steps of the dynamics

Model of the integrators of `/repo/ipi/engine/motion/dynamics.py`: the sequence of elementary
updates that one step performs and the time steps these updates use.
-/

namespace Verif.Mts

/-- Elementary updates. -/
inductive Op where
  /-- `pstep(level)`: momenta, with the forces of one level, for `pdt[level]`. -/
  | p (level : ℕ)
  /-- `pconstraints()`. -/
  | c
  /-- `qcstep()`: centroid positions, for `qdt`. -/
  | qc
  /-- `nm.free_qstep()`: internal modes of the ring polymer, for `nm.dt`, piped to `qdt` (L331). -/
  | f
  /-- `tstep()`: thermostat (and that of the barostat), for `tdt`. -/
  | t
  /-- `beads.p += fsc_part_2 * dt * 0.5` of the Suzuki-Chin integrators (after
  `barostat.pscstep()` at constant pressure). -/
  | s
  deriving DecidableEq, Repr

open Op

mutual
/-- `mtsprop_ba(index)` (L449-479); the list holds `nmts[index:]`.  `mtsprop(index + 1)` (L511-514)
is written out.  The empty list is never reached: there is at least one level (L85-88) and
`index == nmtslevels - 1` stops the recursion. -/
def ba (idx : ℕ) : List ℕ → List Op
  | [] => []
  | m :: rest =>
      (List.replicate (m / 2) ([p idx, c]
        ++ (if rest.isEmpty then [qc, f, qc, f] else ba (idx + 1) rest ++ ab (idx + 1) rest)
        ++ [p idx, c])).flatten
      ++ (if m % 2 = 1 then
            [p idx, c] ++ (if rest.isEmpty then [qc, f] else ba (idx + 1) rest)
          else [])
/-- `mtsprop_ab(index)` (L481-509). -/
def ab (idx : ℕ) : List ℕ → List Op
  | [] => []
  | m :: rest =>
      (if m % 2 = 1 then
          (if rest.isEmpty then [qc, f] else ab (idx + 1) rest) ++ [p idx, c]
        else [])
      ++ (List.replicate (m / 2) ([p idx, c]
        ++ (if rest.isEmpty then [qc, f, qc, f] else ba (idx + 1) rest ++ ab (idx + 1) rest)
        ++ [p idx, c])).flatten
end

/-- `mtsprop(index)` (L511-514). -/
def mtsprop (idx : ℕ) (nmts : List ℕ) : List Op := ba idx nmts ++ ab idx nmts

/-- The two splittings (`get_tdt`, L266-276, refuses anything else). -/
inductive Splitting where
  | obabo
  | baoab
  deriving DecidableEq, Repr

/-- `NVEIntegrator.step` (L516-519). -/
def nveStep (nmts : List ℕ) : List Op := mtsprop 0 nmts

/-- `NVTIntegrator.step` (L538-558), also used at constant pressure (`NPTIntegrator`,
`NSTIntegrator`). -/
def nvtStep (sp : Splitting) (nmts : List ℕ) : List Op :=
  match sp with
  | .obabo => [t, c] ++ mtsprop 0 nmts ++ [t, c]
  | .baoab => ba 0 nmts ++ [t, c] ++ ab 0 nmts

/-- `SCIntegrator.step` and `SCNPTIntegrator.step`. -/
def scStep (sp : Splitting) (nmts : List ℕ) : List Op :=
  match sp with
  | .obabo => [t, c, s] ++ mtsprop 0 nmts ++ [s, t, c]
  | .baoab => [s] ++ ba 0 nmts ++ [t, c] ++ ab 0 nmts ++ [s]

/-- `NVTCCIntegrator.step` (L580-610): the same updates for every splitting and every list of
multipliers; `p 0` stands for its own `pstep`, which uses all forces for `0.5 * dt` (L572-578).
The zeroing of the centroid momenta is left out. -/
def nvtccStep : List Op := [t, c, p 0, c, f, f, p 0, c, t, c]

section
variable {K : Type} [Field K]

/-- The loop of `get_pdt` (L259-264): `acc` is `dt * 0.5` divided by the multipliers so far. -/
def pdtFrom (acc : K) : List ℕ → List K
  | [] => []
  | m :: rest => (acc / (m : K)) :: pdtFrom (acc / (m : K)) rest

/-- `get_pdt` (L259-264). -/
def pdt (dt : K) (nmts : List ℕ) : List K := pdtFrom (dt / 2) nmts

/-- `get_qdt` (L256-257). -/
def qdt (dt : K) (nmts : List ℕ) : K := dt / 2 / (nmts.prod : ℕ)

/-- `get_tdt` (L266-276). -/
def tdt (dt : K) (sp : Splitting) : K :=
  match sp with
  | .obabo => dt / 2
  | .baoab => dt

end

end Verif.Mts
