import Mathlib.Analysis.Normed.Algebra.MatrixExponential
import Mathlib.Analysis.SpecialFunctions.Exponential
import Mathlib.Analysis.SpecialFunctions.Log.Basic
import Mathlib.Analysis.SpecialFunctions.Trigonometric.DerivHyp

/-!
# Barostats

Model of `/repo/ipi/engine/barostats.py` (the isotropic barostat `BaroBZP`, the anisotropic ones
`BaroRGB` and `BaroMTK`, and the stress estimators of the base class) together with
`NPTIntegrator.pstep` (`/repo/ipi/engine/motion/dynamics.py` L624-643), with exact real numbers.
Not modelled: fixed atoms and the dependency
network (C02, C66).
-/

namespace Verif.Baro

open Finset

/-- Positions, momenta or forces of all beads: bead, atom, direction. -/
abbrev Cfg (nb N : ℕ) := Fin nb → Fin N → Fin 3 → ℝ
/-- The same for one replica: atom, direction. -/
abbrev Cen (N : ℕ) := Fin N → Fin 3 → ℝ
/-- 3x3 arrays: cells, stresses, cell momenta. -/
abbrev M3 := Fin 3 → Fin 3 → ℝ

/-- `beads.qc`, `beads.pc` (`/repo/ipi/engine/beads.py`): the average over the beads. -/
noncomputable def mean {nb N : ℕ} (x : Cfg nb N) : Cen N := fun a d => (∑ b, x b a d) / nb

/-- Assigning the zeroth normal mode (`nm.qnm[0] = ...`, `nm.pnm[0] = ...`): the zeroth mode is
`√nb` times the average (C36), so the average becomes `c` and the differences between the beads
stay. -/
noncomputable def setMean {nb N : ℕ} (x : Cfg nb N) (c : Cen N) : Cfg nb N :=
  fun b a d => x b a d + (c a d - mean x a d)

/-- `cell.V`: `det_ut3x3` (`/repo/ipi/utils/mathtools.py` L296-311). -/
def vol (h : M3) : ℝ := h 0 0 * h 1 1 * h 2 2

/-- What one level of the force field returns, summed over its components: forces on all beads and
the virial summed over the beads (`mts_forces[level].f`, `.vir`); also the bias (`bias.f`,
`bias.vir`), which is zero everywhere when there is none. -/
structure FF (nb N : ℕ) where
  f : Cfg nb N
  vir : M3

/-- No force. -/
def FF.zero (nb N : ℕ) : FF nb N := ⟨fun _ _ _ => 0, fun _ _ => 0⟩

/-- The parameters: the atomic masses, `kT = Constants.kb * barostat.temp` (the barostat
temperature is `nb` times the physical one), and the piston mass `m[0]`. -/
structure Par (N : ℕ) where
  m : Fin N → ℝ
  kT : ℝ
  M : ℝ

/-- Which level of the multiple time step hierarchy is being done: `outer` is `level == 0`,
`inner` is `level == nmtslevels - 1`; `hasBias` is `ensemble.has_bias` of the integrator. -/
structure Lev where
  outer : Bool
  inner : Bool
  hasBias : Bool

/-- A quantity only present when the flag is set. -/
def onlyIf (b : Bool) (x : ℝ) : ℝ := if b then x else 0

/-- `kstress_mts` (`barostats.py` L299-327). -/
noncomputable def kstressMts {nb N : ℕ} (par : Par N) (F bias : FF nb N) (l : Lev)
    (x p : Cfg nb N) : M3 := fun i j =>
  -(∑ b, ∑ a, (x b a i - mean x a i) * (F.f b a j + onlyIf l.outer (bias.f b a j)))
    + onlyIf (l.inner && i == j) ((∑ a, mean p a i * (mean p a i / par.m a)) * nb)

/-- `stress_mts` (L382-393). -/
noncomputable def stressMts {nb N : ℕ} (par : Par N) (F bias : FF nb N) (l : Lev)
    (x p : Cfg nb N) (h : M3) : M3 := fun i j =>
  (kstressMts par F bias l x p i j + F.vir i j + onlyIf l.outer (bias.vir i j)) / vol h

/-- The kick on the beads in `NVEIntegrator.pstep`, `dynamics.py` L436-439: the forces of the
level, and at the outermost level the bias if there is one. -/
def kick {nb N : ℕ} (F bias : FF nb N) (l : Lev) (dt : ℝ) (p : Cfg nb N) : Cfg nb N :=
  fun b a d => p b a d + F.f b a d * dt + onlyIf (l.outer && l.hasBias) (bias.f b a d * dt)

/-- The forces on the centroids used by the barostats, `fc` (L595, L1088-1093, L1373-1378): those of the level,
without the bias. -/
noncomputable def fcen {nb N : ℕ} (F : FF nb N) : Cen N := mean F.f

/-- The state the isotropic barostat works on: bead positions and momenta, cell, and the momentum
conjugate to the logarithm of the cell size. -/
structure Iso (nb N : ℕ) where
  x : Cfg nb N
  p : Cfg nb N
  h : M3
  pe : ℝ

/-- `BaroBZP.pstep` (L573-603). -/
noncomputable def bzpP {nb N : ℕ} (par : Par N) (pext : ℝ) (F bias : FF nb N) (l : Lev) (dt : ℝ)
    (s : Iso nb N) : ℝ :=
  let press := (∑ i, stressMts par F bias l s.x s.p s.h i i) / 3
  let p1 := s.pe + dt * 3 * (vol s.h * press)
  if l.inner then
    let p2 := p1 + 3 * dt * (vol s.h * (0 - nb * pext) + par.kT)
    p2 + ((∑ a, ∑ d, mean s.p a d * (fcen F a d / par.m a))
      + dt / 3 * (∑ a, ∑ d, fcen F a d * (fcen F a d / par.m a))) * (dt * dt * nb)
  else p1

/-- `NPTIntegrator.pstep` (`dynamics.py` L624-643): the barostat first, then the beads. -/
noncomputable def isoPstep {nb N : ℕ} (par : Par N) (pext : ℝ) (F bias : FF nb N) (l : Lev)
    (dt : ℝ) (s : Iso nb N) : Iso nb N :=
  { s with pe := bzpP par pext F bias l dt s, p := kick F bias l dt s.p }

/-- `BaroBZP.qcstep` (L606-623) for a nonzero piston velocity. -/
noncomputable def bzpQ {nb N : ℕ} (par : Par N) (dt : ℝ) (s : Iso nb N) : Iso nb N :=
  let v := s.pe / par.M
  let expq := Real.exp (v * dt)
  let expp := Real.exp (-v * dt)
  { s with
    x := setMean s.x fun a d =>
      mean s.x a d * expq + ((expq - expp) / (2 * v)) * (mean s.p a d / par.m a)
    p := setMean s.p fun a d => expp * mean s.p a d
    h := fun i j => s.h i j * expq }

/-- `BaroBZP.qcstep` (L606-623): with zero piston velocity `(expq - expp) / (2 v)` is `0 / 0`, and
all positions become NaN (`none`). -/
noncomputable def isoQcstep {nb N : ℕ} (par : Par N) (dt : ℝ) (s : Iso nb N) :
    Option (Iso nb N) :=
  if s.pe / par.M = 0 then none else some (bzpQ par dt s)

/-- `kin`, `pot`, `cell_jacobian` of `BaroBZP` (L531-535, L557-566). -/
noncomputable def isoBaroE {nb N : ℕ} (par : Par N) (pext : ℝ) (s : Iso nb N) : ℝ :=
  1 / 2 * s.pe ^ 2 / par.M + vol s.h * pext * nb - Real.log (vol s.h) * par.kT

/-- Kinetic energy of the beads, `nm.kin`/`beads.kin`. -/
noncomputable def kinE {nb N : ℕ} (par : Par N) (p : Cfg nb N) : ℝ :=
  ∑ b, ∑ a, ∑ d, p b a d ^ 2 / (2 * par.m a)

/-- The conserved quantity (`ensemble.econs`, `/repo/ipi/engine/ensembles.py`) without the
thermostats' part: kinetic energy, springs `sp`, potential `U` (forces and bias), barostat. -/
noncomputable def isoE {nb N : ℕ} (par : Par N) (pext : ℝ) (sp : Cfg nb N → ℝ)
    (U : Cfg nb N × M3 → ℝ) (s : Iso nb N) : ℝ :=
  kinE par s.p + sp s.x + U (s.x, s.h) + isoBaroE par pext s

/-! ## The anisotropic barostats -/

/-- The state the anisotropic barostats work on: bead positions and momenta, cell, cell momentum
(`p`, upper triangular), and the accumulated energy of the barostat's thermostat (`ethermo`), in
which the energy removed by the mask is recorded. -/
structure Ani (nb N : ℕ) where
  x : Cfg nb N
  p : Cfg nb N
  h : M3
  pe : M3
  eth : ℝ

/-- `np.triu`. -/
def triu (a : M3) : M3 := fun i j => if i ≤ j then a i j else 0

/-- Matrix product, `np.dot`. -/
def mul3 (a b : M3) : M3 := fun i j => ∑ k, a i k * b k j

/-- Transpose. -/
def tr3 (a : M3) : M3 := fun i j => a j i

/-- Trace. -/
def trace3 (a : M3) : ℝ := ∑ i, a i i

/-- The identity. -/
def one3 : M3 := fun i j => if i = j then 1 else 0

/-- The names accepted in `hfix` (`mask_from_fix`, L34-60 of `barostats.py`; `yx`, `zx`, `zy` are
other names of `xy`, `xz`, `yz`, and any other name is a `KeyError`). -/
inductive Fix where
  | xx | yy | zz | xy | xz | yz | offdiagonal
deriving DecidableEq

/-- Which entries one name sets to zero. -/
def Fix.hits : Fix → Fin 3 → Fin 3 → Bool
  | .xx, 0, 0 => true
  | .yy, 1, 1 => true
  | .zz, 2, 2 => true
  | .xy, 0, 1 => true
  | .xz, 0, 2 => true
  | .yz, 1, 2 => true
  | .offdiagonal, 0, 1 => true
  | .offdiagonal, 0, 2 => true
  | .offdiagonal, 1, 2 => true
  | _, _, _ => false

/-- The names accepted in `hfix` (the keys of `m2f`, L38-50): entries below the diagonal are
mapped to the one above it. -/
def Fix.ofName : List Char → Option Fix
  | ['x', 'x'] => some .xx
  | ['x', 'y'] => some .xy
  | ['x', 'z'] => some .xz
  | ['y', 'x'] => some .xy
  | ['y', 'y'] => some .yy
  | ['y', 'z'] => some .yz
  | ['z', 'x'] => some .xz
  | ['z', 'y'] => some .yz
  | ['z', 'z'] => some .zz
  | ['o', 'f', 'f', 'd', 'i', 'a', 'g', 'o', 'n', 'a', 'l'] => some .offdiagonal
  | _ => none

/-- `mask_from_fix`: ones except at the named entries. -/
def mask (fix : List Fix) : M3 := fun i j => if fix.any (fun f => f.hits i j) then 0 else 1

/-- `L` (L936, L1229): the number of ones in each row of the upper triangle of the mask. -/
def lrow (hm : M3) (i : Fin 3) : ℝ := ∑ j, if i ≤ j then hm i j else 0

/-- The external stress: `BaroRGB` has a tensor, referred to a reference cell (L1073-1074);
`BaroMTK` a pressure (L1357-1359). -/
inductive Ext where
  | rgb (stress h0 ih0 : M3)
  | mtk (pext : ℝ)

/-- `pi_ext` (L1073-1074, L1357-1359). -/
noncomputable def piExt (e : Ext) (h : M3) : M3 :=
  match e with
  | .rgb st h0 ih0 =>
      let hh0 := mul3 h ih0
      fun i j => mul3 hh0 (mul3 st (tr3 hh0)) i j * vol h0 / vol h
  | .mtk pext => fun i j => one3 i j * pext

/-- `get_pot` (L1045-1053, L1330-1334). -/
noncomputable def extPot (nb : ℕ) (e : Ext) (h : M3) : ℝ :=
  match e with
  | .rgb st h0 ih0 =>
      let eps := mul3 h ih0
      let eps2 : M3 := fun i j => 1 / 2 * (mul3 (tr3 eps) eps i j - one3 i j)
      vol h0 * trace3 (mul3 st eps2) * nb
  | .mtk pext => vol h * pext * nb

/-- `kin` (L1000-1004, L1285-1289). -/
noncomputable def aniKin (M : ℝ) (pe : M3) : ℝ := 1 / 2 * trace3 (mul3 (tr3 pe) pe) / M

/-- `BaroRGB.pstep`, `BaroMTK.pstep` (L1066-1099, L1350-1385) before the mask is applied. -/
noncomputable def aniP {nb N : ℕ} (par : Par N) (e : Ext) (hm : M3) (F bias : FF nb N) (l : Lev)
    (dt : ℝ) (s : Ani nb N) : M3 := fun i j =>
  let p1 := s.pe i j + dt * (vol s.h * triu (stressMts par F bias l s.x s.p s.h) i j)
  if l.inner then
    let p2 := p1 + dt * (vol s.h * triu (fun i j => -nb * piExt e s.h i j) i j
      + par.kT * (if i = j then lrow hm i else 0))
    p2 + triu (fun i j => dt ^ 2 * (∑ a, fcen F a i / par.m a * mean s.p a j)
      + dt ^ 3 / 3 * (∑ a, fcen F a i / par.m a * fcen F a j)) i j * nb
  else p1

/-- The mask and, for `BaroMTK` with `vol_constraint`, the removal of the trace (L1101-1104,
L1387-1394). -/
noncomputable def constrain (hm : M3) (volc : Bool) (pe : M3) : M3 :=
  let q : M3 := fun i j => pe i j * hm i j
  if volc then fun i j => q i j - one3 i j * trace3 q / 3 else q

/-- `pstep` of the anisotropic barostats followed by the kick on the beads. -/
noncomputable def aniPstep {nb N : ℕ} (par : Par N) (e : Ext) (hm : M3) (volc : Bool)
    (F bias : FF nb N) (l : Lev) (dt : ℝ) (s : Ani nb N) : Ani nb N :=
  let pe := aniP par e hm F bias l dt s
  let pe' := constrain hm volc pe
  { s with pe := pe', eth := s.eth + aniKin par.M pe - aniKin par.M pe',
           p := kick F bias l dt s.p }

/-- `matrix_exp` (`mathtools.py` L58-90), here the exact exponential (the code uses twenty Taylor
terms and ten squarings). -/
noncomputable def mexp (a : M3) : M3 := fun i j =>
  (NormedSpace.exp (Matrix.of a : Matrix (Fin 3) (Fin 3) ℝ) : Matrix (Fin 3) (Fin 3) ℝ) i j

/-- `_sinch` (`mathtools.py` L415-425), here exactly `sinh x / x`, and one at zero. -/
noncomputable def sinch (x : ℝ) : ℝ := if x = 0 then 1 else Real.sinh x / x

/-- `mat_taylor(x, "sinhx/x")` (`mathtools.py` L431-459). -/
noncomputable def matTaylor (x : M3) : M3 :=
  let x2 := mul3 x x
  let t4 : M3 := fun i j => one3 i j + x2 i j / 72
  let t3 : M3 := fun i j => one3 i j + mul3 (fun i j => x2 i j / 42) t4 i j
  let t2 : M3 := fun i j => one3 i j + mul3 (fun i j => x2 i j / 20) t3 i j
  fun i j => one3 i j + mul3 (fun i j => x2 i j / 6) t2 i j

/-- An eigendecomposition as `np.linalg.eig` and `np.linalg.inv` return it, restricted to real
eigenvalues (the velocity is upper triangular, so they are real). -/
structure Eig where
  vec : M3
  ivec : M3
  val : Fin 3 → ℝ

/-- `sinh` in `qcstep` (L1109-1123, L1399-1413): two branches, on whether all the diagonal
velocities are zero. -/
noncomputable def aniSinh (eig : M3 → Eig) (v : M3) (dt : ℝ) : M3 :=
  if v 0 0 = 0 ∧ v 1 1 = 0 ∧ v 2 2 = 0 then matTaylor fun i j => v i j * dt
  else fun i j =>
    dt * mul3 (eig v).vec (mul3 (fun k l => if k = l then sinch (dt * (eig v).val k) else 0)
      (eig v).ivec) i j

/-- `qcstep` of the anisotropic barostats (L1106-1141, L1396-1430). -/
noncomputable def aniQcstep {nb N : ℕ} (par : Par N) (eig : M3 → Eig) (dt : ℝ) (s : Ani nb N) :
    Ani nb N :=
  let v : M3 := fun i j => s.pe i j / par.M
  let sinh := aniSinh eig v dt
  let expq := mexp fun i j => v i j * dt
  let expp := mexp fun i j => -v i j * dt
  { s with
    x := setMean s.x fun a i =>
      (∑ j, mean s.x a j * expq i j) + ∑ j, mean s.p a j / par.m a * sinh i j
    p := setMean s.p fun a i => ∑ j, mean s.p a j * expp i j
    h := mul3 expq s.h }

/-- `get_cell_jacobian` of the anisotropic barostats (L1055-1059, L1339-1343). -/
noncomputable def aniJac (kT : ℝ) (h : M3) : ℝ :=
  -1 * kT * (3 * Real.log (h 0 0) + 2 * Real.log (h 1 1) + 1 * Real.log (h 2 2))

/-- The conserved quantity without the atomic thermostat's part. -/
noncomputable def aniE {nb N : ℕ} (par : Par N) (e : Ext) (sp : Cfg nb N → ℝ)
    (U : Cfg nb N × M3 → ℝ) (s : Ani nb N) : ℝ :=
  kinE par s.p + sp s.x + U (s.x, s.h)
    + (s.eth + aniKin par.M s.pe + extPot nb e s.h + aniJac par.kT s.h)

end Verif.Baro
