import Verif.Phys.Baro

/-!
# The Suzuki-Chin barostat

Model of `BaroSCBZP` (`/repo/ipi/engine/barostats.py` L628-842), of the Suzuki-Chin stresses of the
barostat base class (L267-297, L330-346, L357-380), of `SCNPTIntegrator`
(`/repo/ipi/engine/motion/dynamics.py` L713-722, L758-829) and of the fourth order virial
(`/repo/ipi/engine/forces.py` L1262-1444), with exact real numbers.
Not modelled: ring polymer contraction and several force components (one component evaluated on all
the beads), thermostats, `pconstraints` (no fixed centre of mass, no fixed atoms), and the
dependency network.
-/

namespace Verif.Baro

open Finset

variable {nb N : ℕ}

/-- What one level of the force field returns: forces on all beads and the virial of every bead
(`mts_forces[level].f`, `.virs`). -/
structure FFb (nb N : ℕ) where
  f : Cfg nb N
  virs : Fin nb → M3

/-- `get_coeffsc_part_1` (`forces.py` L1616-1622). -/
noncomputable def c1 (b : Fin nb) : ℝ := if (b : ℕ) % 2 = 0 then -1 / 3 else 1 / 3

/-- `get_coeffsc_part_2` (`forces.py` L1624-1630). -/
noncomputable def c2 (alpha omegan2 : ℝ) (b : Fin nb) : ℝ :=
  if (b : ℕ) % 2 = 0 then alpha / omegan2 / 9 else (1 - alpha) / omegan2 / 9

/-- `kstress_mts_sc` (`barostats.py` L267-297): only the upper triangle is filled; the bias is not
scaled. -/
noncomputable def kstressMtsSc (par : Par N) (F : FFb nb N) (bias : FF nb N) (l : Lev)
    (x p : Cfg nb N) : M3 := fun i j =>
  (if i ≤ j then -(∑ b, ∑ a, (x b a i - mean x a i)
      * (F.f b a j * (1 + c1 b) + onlyIf l.outer (bias.f b a j))) else 0)
    + onlyIf (l.inner && i == j) ((∑ a, mean p a i * (mean p a i / par.m a)) * nb)

/-- `stress_mts_sc` (`barostats.py` L363-380). -/
noncomputable def stressMtsSc (par : Par N) (F : FFb nb N) (bias : FF nb N) (l : Lev)
    (x p : Cfg nb N) (h : M3) : M3 := fun i j =>
  (kstressMtsSc par F bias l x p i j + (∑ b, F.virs b i j * (1 + c1 b))
    + onlyIf l.outer (bias.vir i j)) / vol h

/-- The forces on the centroids, `fc` of `BaroSCBZP.pstep` (L808-815). -/
noncomputable def fcenSc (F : FFb nb N) : Cen N := fun a d =>
  (∑ b, F.f b a d * (1 + c1 b)) / nb

/-- `BaroSCBZP.pstep` (L781-819). -/
noncomputable def scP (par : Par N) (pext : ℝ) (F : FFb nb N) (bias : FF nb N) (l : Lev) (dt : ℝ)
    (s : Iso nb N) : ℝ :=
  let dt2 := dt ^ 2
  let dt3 := dt ^ 3 / 3
  let press := (∑ i, stressMtsSc par F bias l s.x s.p s.h i i) / 3
  let p1 := s.pe + dt * 3 * (vol s.h * press)
  if l.inner then
    let p2 := p1 + dt * 3 * (vol s.h * (0 - nb * pext) + par.kT)
    p2 + (dt2 * (∑ a, ∑ d, mean s.p a d * (fcenSc F a d / par.m a))
      + dt3 * (∑ a, ∑ d, fcenSc F a d * (fcenSc F a d / par.m a))) * nb
  else p1

/-- `SCIntegrator.pstep` (`dynamics.py` L713-724): the bias is added at the outermost level (zero
when there is none), then the scaled forces of the level. -/
noncomputable def scKick (F : FFb nb N) (bias : FF nb N) (l : Lev) (dt : ℝ) (p : Cfg nb N) :
    Cfg nb N := fun b a d =>
  p b a d + onlyIf l.outer (bias.f b a d * dt) + F.f b a d * (1 + c1 b) * dt

/-- `SCNPTIntegrator.pstep` (`dynamics.py` L769-788): the barostat first, then the beads. The check
for a zero virial is left out. -/
noncomputable def scPstep (par : Par N) (pext : ℝ) (F : FFb nb N) (bias : FF nb N) (l : Lev)
    (dt : ℝ) (s : Iso nb N) : Iso nb N :=
  { s with pe := scP par pext F bias l dt s, p := scKick F bias l dt s.p }

/-! ## The high order part -/

/-- A force field evaluated on one replica: forces and virial as functions of positions and cell. -/
structure Field (N : ℕ) where
  force : Cen N → M3 → Cen N
  vir : Cen N → M3 → M3

/-- The kinds of finite differences of `forcesvirs_4th_order` (`forces.py` L1262-1444): `epsilon`
positive is one-sided, negative is centred. -/
inductive Diff where
  | oneSided
  | centred

/-- The difference quotient of `forcesvirs_4th_order`, from the values at the three points: for
`alpha = 0` backward differences and even beads left at zero (L1307-1335), otherwise forward
(L1338-1361); centred differences (L1376-1410 for `alpha = 0`, with even beads at zero, and
L1413-1440). -/
noncomputable def quot (k : Diff) (alpha delta : ℝ) (b : Fin nb) (base plus minus : ℝ) : ℝ :=
  match k with
  | .oneSided =>
    if alpha = 0 then (if (b : ℕ) % 2 = 0 then 0 else 2 * (minus - base) / delta)
    else 2 * (base - plus) / delta
  | .centred =>
    if alpha = 0 then (if (b : ℕ) % 2 = 0 then 0 else 2 * (minus - plus) / 2 / delta)
    else 2 * (minus - plus) / 2 / delta

/-- The displaced replica: `q + dq` with `dq = delta * f / m3` (`forces.py` L1281-1297). -/
noncomputable def disp (par : Par N) (G : Field N) (delta : ℝ) (x : Cen N) (h : M3) : Cen N :=
  fun a d => x a d + delta * G.force x h a d / par.m a

/-- The first item of `forcesvirs_4th_order`. -/
noncomputable def f4 (par : Par N) (G : Field N) (k : Diff) (alpha delta : ℝ) (x : Cfg nb N)
    (h : M3) : Cfg nb N := fun b a d =>
  quot k alpha delta b (G.force (x b) h a d) (G.force (disp par G delta (x b) h) h a d)
    (G.force (disp par G (-delta) (x b) h) h a d)

/-- The second item of `forcesvirs_4th_order`. -/
noncomputable def v4 (par : Par N) (G : Field N) (k : Diff) (alpha delta : ℝ) (x : Cfg nb N)
    (h : M3) : Fin nb → M3 := fun b i j =>
  quot k alpha delta b (G.vir (x b) h i j) (G.vir (disp par G delta (x b) h) h i j)
    (G.vir (disp par G (-delta) (x b) h) h i j)

/-- `fsc_part_2` and `virssc_part_2` (`forces.py` L1591-1594, L1602-1606). -/
noncomputable def sc2 (par : Par N) (G : Field N) (k : Diff) (alpha omegan2 delta : ℝ)
    (x : Cfg nb N) (h : M3) : FFb nb N where
  f := fun b a d => c2 alpha omegan2 b * f4 par G k alpha delta x h b a d
  virs := fun b i j => c2 alpha omegan2 b * v4 par G k alpha delta x h b i j

/-- `get_kstress_sc` (`barostats.py` L330-346). -/
noncomputable def kstressSc (S : FFb nb N) (x : Cfg nb N) : M3 := fun i j =>
  if i ≤ j then -(∑ b, ∑ a, (x b a i - mean x a i) * S.f b a j) else 0

/-- `get_stress_sc` (`barostats.py` L357-361). -/
noncomputable def stressSc (S : FFb nb N) (x : Cfg nb N) (h : M3) : M3 := fun i j =>
  (kstressSc S x i j + ∑ b, S.virs b i j) / vol h

/-- `BaroSCBZP.pscstep` (`barostats.py` L773-779). -/
noncomputable def pscstep (S : FFb nb N) (dt : ℝ) (s : Iso nb N) : Iso nb N :=
  let press := (∑ i, stressSc S s.x s.h i i) / 3
  { s with pe := s.pe + dt / 2 * 3 * (vol s.h * press) }

/-- The kick with the high order forces, in `SCNPTIntegrator.step` (`dynamics.py` L812, L815, L823,
L829). -/
noncomputable def scKick2 (S : FFb nb N) (dt : ℝ) (s : Iso nb N) : Iso nb N :=
  { s with p := fun b a d => s.p b a d + S.f b a d * dt * (1 / 2) }

/-- The two together, as at the beginning and at the end of `SCNPTIntegrator.step`. -/
noncomputable def scSlow (S : FFb nb N) (dt : ℝ) (s : Iso nb N) : Iso nb N :=
  scKick2 S dt (pscstep S dt s)

/-- `nm.free_qstep` (`/repo/ipi/engine/normalmodes.py`): it moves the beads around their centroid,
which it leaves where it is; `g` is the motion of the differences from the centroid. -/
noncomputable def freeStep (g : ℝ → Cfg nb N × Cfg nb N → Cfg nb N × Cfg nb N) (dt : ℝ)
    (s : Iso nb N) : Iso nb N :=
  let r := g dt (fun b a d => s.x b a d - mean s.x a d, fun b a d => s.p b a d - mean s.p a d)
  { s with
    x := fun b a d => mean s.x a d + r.1 b a d
    p := fun b a d => mean s.p a d + r.2 b a d }

/-- `SCNPTIntegrator.step` (`dynamics.py` L800-829) for one level of multiple time stepping and
without the thermostats: high order kick, half a momentum step, `mtsprop_ba` and `mtsprop_ab`
(L452-497) of the positions, half a momentum step, high order kick. `BaroSCBZP.qcstep`
(`barostats.py` L821-838) is the same as `BaroBZP.qcstep`. -/
noncomputable def scStep (par : Par N) (pext : ℝ) (F : Cfg nb N → M3 → FFb nb N)
    (bias : Cfg nb N → M3 → FF nb N) (S : Cfg nb N → M3 → FFb nb N)
    (g : ℝ → Cfg nb N × Cfg nb N → Cfg nb N × Cfg nb N) (dt : ℝ) (s : Iso nb N) :
    Option (Iso nb N) :=
  let l : Lev := ⟨true, true, true⟩
  let s1 := scSlow (S s.x s.h) dt s
  let s2 := scPstep par pext (F s1.x s1.h) (bias s1.x s1.h) l (dt / 2) s1
  match isoQcstep par (dt / 2) s2 with
  | none => none
  | some s3 =>
    match isoQcstep par (dt / 2) (freeStep g (dt / 2) s3) with
    | none => none
    | some s5 =>
      let s6 := freeStep g (dt / 2) s5
      let s7 := scPstep par pext (F s6.x s6.h) (bias s6.x s6.h) l (dt / 2) s6
      some (scSlow (S s7.x s7.h) dt s7)

end Verif.Baro
