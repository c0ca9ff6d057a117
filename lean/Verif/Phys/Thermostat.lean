import Mathlib.Algebra.BigOperators.Fin
import Mathlib.Analysis.SpecialFunctions.Exp
import Mathlib.Analysis.Real.Sqrt
import Mathlib.Data.Matrix.Mul

/-!
# Thermostats

Models `ipi/engine/thermostats.py`.  A thermostat is bound to a momentum vector and a mass vector
(`Thermostat.bind`, lines 74-144) and keeps the energy given to the bath in `ethermo`.  One call of
`step` reads the momenta, draws random numbers, writes the momenta and updates `ethermo`.

Simplifications: real numbers instead of floats; the random numbers of a step are arguments; the
dependency network that keeps `T`, `S`, `sm` up to date is the subject of C01-C04 and is replaced by
plain functions of the parameters; undefined float results (`0/0`) are `none`.
-/

namespace Verif.Thermo

open Finset

/-- The momenta a thermostat is bound to and the energy it has given to the bath
(`thermostats.py` 70-72, 118-132). -/
structure Bath (ι : Type) where
  p : ι → ℝ
  ethermo : ℝ

section
variable {ι : Type} [Fintype ι]

/-- `Thermostat.get_sm` (`thermostats.py` 146-154): square roots of the masses. -/
noncomputable def sm (m : ι → ℝ) (i : ι) : ℝ := √(m i)

/-- `np.dot(p, p)` / `noddot`. -/
def dot (p q : ι → ℝ) : ℝ := ∑ i, p i * q i

/-- `ThermoLangevin.get_T`, `ThermoSVR.get_et` (`thermostats.py` 177-180, 472-475). -/
noncomputable def expT (dt tau : ℝ) : ℝ := Real.exp (-dt / tau)

/-- `ThermoLangevin.get_S` (`thermostats.py` 182-184). -/
noncomputable def lanS (kb temp T : ℝ) : ℝ := √(kb * temp * (1 - T ^ 2))

/-- `ThermoLangevin.step` (`thermostats.py` 230-253), for the coefficients `T` and `S`.  `T_on_sm`
(186-188) is inlined. -/
noncomputable def langevin (m : ι → ℝ) (T S : ℝ) (xi : ι → ℝ) (s : Bath ι) : Bath ι :=
  let p1 := fun i => s.p i * (T / sm m i)
  let deltah := dot p1 p1 / T ^ 2
  let p2 := fun i => p1 i + S * xi i
  let deltah := deltah - dot p2 p2
  { p := fun i => p2 i * sm m i, ethermo := s.ethermo + deltah * 0.5 }

/-- `ThermoLangevin.step` with the coefficients computed from the parameters. -/
noncomputable def langevinStep (m : ι → ℝ) (kb temp dt tau : ℝ) (xi : ι → ℝ) (s : Bath ι) :
    Bath ι :=
  langevin m (expT dt tau) (lanS kb temp (expT dt tau)) xi s

/-- `ThermoSVR.get_K` (`thermostats.py` 477-479). -/
noncomputable def svrK (kb temp : ℝ) : ℝ := kb * temp * 0.5

/-- The kinetic energy in `ThermoSVR.step` (`thermostats.py` 506). -/
noncomputable def kinE (m p : ι → ℝ) : ℝ := dot p (fun i => p i / m i) * 0.5

/-- The variable `rg` of `ThermoSVR.step` (`thermostats.py` 514-517): twice a gamma variate, plus the
square of a Gaussian one when `ndof - 1` is odd.  `gam` and `g` are the drawn numbers. -/
noncomputable def svrRg (ndof : ℕ) (gam g : ℝ) : ℝ :=
  if (ndof - 1) % 2 = 0 then 2 * gam else 2 * gam + g ^ 2

/-- The variable `alpha2` of `ThermoSVR.step` (`thermostats.py` 519-523); `Kb` is `self.K`, `K` the
kinetic energy, `et` is `self.et`. -/
noncomputable def svrAlpha2 (et Kb K r1 rg : ℝ) : ℝ :=
  et + Kb / K * (1 - et) * (r1 ^ 2 + rg) + 2 * r1 * √(Kb / K * et * (1 - et))

/-- The sign test of `ThermoSVR.step` (`thermostats.py` 525); with `et = 1` or `self.K = 0` numpy
divides by zero, the root is infinite and the test fails. -/
noncomputable def svrNeg (et Kb K r1 : ℝ) : Bool :=
  open scoped Classical in
  if et = 1 ∨ Kb = 0 then false
  else if r1 + √(2 * K / Kb * et / (1 - et)) < 0 then true else false

/-- The factor the momenta are multiplied with (`thermostats.py` 524-526). -/
noncomputable def svrAlpha (et Kb K r1 rg : ℝ) : ℝ :=
  if svrNeg et Kb K r1 then -√(svrAlpha2 et Kb K r1 rg) else √(svrAlpha2 et Kb K r1 rg)

/-- `ThermoSVR.step` (`thermostats.py` 500-529), for the coefficients `et` and `Kb = self.K`. -/
noncomputable def svr (m : ι → ℝ) (et Kb r1 rg : ℝ) (s : Bath ι) : Bath ι :=
  open scoped Classical in
  if kinE m s.p = 0 then s
  else
    { p := fun i => s.p i * svrAlpha et Kb (kinE m s.p) r1 rg
      ethermo := s.ethermo + kinE m s.p * (1 - svrAlpha2 et Kb (kinE m s.p) r1 rg) }

/-- The coefficients of `ThermoCL` (`thermostats.py` 1091-1113): a time scale of zero switches a
term off. -/
noncomputable def clT (dt tau : ℝ) : ℝ :=
  open scoped Classical in
  if 0 < tau then Real.exp (-0.5 * dt / tau) else 1

/-- `ThermoCL.step` (`thermostats.py` 1163-1180), the adjustment of the time scales (1182-1194) left
out: it follows the update and does not touch momenta or energy. -/
noncomputable def cl (m : ι → ℝ) (T S : ℝ) (xi : ι → ℝ) (s : Bath ι) : Bath ι :=
  let p0 := fun i => s.p i / sm m i
  let et := s.ethermo + dot p0 p0 * 0.5
  let p1 := fun i => p0 i * T + S * xi i
  let et := et - dot p1 p1 * 0.5
  { p := fun i => p1 i * sm m i, ethermo := et }

/-- `ThermoCL.get_T`, `get_S` and `step` (`thermostats.py` 1115-1123, 1163-1180). -/
noncomputable def clStep (m : ι → ℝ) (kb temp dt tau intau idtau : ℝ) (xi : ι → ℝ) (s : Bath ι) :
    Bath ι :=
  cl m (clT dt tau * clT dt intau) √(kb * temp * (1 - (clT dt tau * clT dt idtau) ^ 2)) xi s

/-- The state of a GLE thermostat: the momenta and the extended vector `s` of shape `(ns+1, n)`
(`thermostats.py` 765-782). -/
structure GBath (ns : ℕ) (ι : Type) where
  p : ι → ℝ
  s : Fin (ns + 1) → ι → ℝ
  ethermo : ℝ

/-- `ThermoGLE.step` (`thermostats.py` 784-795), for the matrices `T` and `S` and the random array
`xi` of the shape of `s`. -/
noncomputable def gle {ns : ℕ} (m : ι → ℝ) (T S : Matrix (Fin (ns + 1)) (Fin (ns + 1)) ℝ)
    (xi : Fin (ns + 1) → ι → ℝ) (g : GBath ns ι) : GBath ns ι :=
  let s0 : Fin (ns + 1) → ι → ℝ := fun k i => if k = 0 then g.p i / sm m i else g.s k i
  let e0 := g.ethermo + dot (s0 0) (s0 0) * 0.5
  let s1 : Fin (ns + 1) → ι → ℝ := fun k i => ∑ l, T k l * s0 l i + ∑ l, S k l * xi l i
  let e1 := e0 - dot (s1 0) (s1 0) * 0.5
  { p := fun i => s1 0 i * sm m i, s := s1, ethermo := e1 }

end

/-- The flips of `ThermoFFL` (`thermostats.py` 1231-1239). -/
inductive Flip
  | soft | hard | rescale | none
  deriving DecidableEq

/-- `np.sign`. -/
noncomputable def sgn (x : ℝ) : ℝ :=
  open scoped Classical in
  if 0 < x then 1 else if x < 0 then -1 else 0

/-- `hfunc` (`thermostats.py` 1346-1347). -/
noncomputable def hfunc (x : ℝ) : ℝ := (sgn x - 1) * x

/-- The flip applied to one atom (`thermostats.py` 1260-1279): `old` and `new` are the mass scaled
momenta before and after the Langevin step, rows of the `(-1, 3)` arrays.  `none` stands for a row
of NaN: the soft and the rescaling flip divide by the old momentum. -/
noncomputable def flipRow (f : Flip) (old new : Fin 3 → ℝ) : Option (Fin 3 → ℝ) :=
  open scoped Classical in
  match f with
  | .soft => if dot old old = 0 then Option.none else
      some fun k => new k + hfunc (dot old new / dot old old) * old k
  | .hard => some fun k => new k * sgn (new k * old k)
  | .rescale => if dot old old = 0 then Option.none else
      some fun k => √(dot new new) / √(dot old old) * old k
  | .none => some new

/-- `ThermoFFL.step` (`thermostats.py` 1241-1287), momenta arranged per atom.  `none`: some momentum
has become NaN. -/
noncomputable def ffl {N : ℕ} (f : Flip) (m : Fin N → Fin 3 → ℝ) (T S : ℝ)
    (xi p : Fin N → Fin 3 → ℝ) (ethermo : ℝ) : Option ((Fin N → Fin 3 → ℝ) × ℝ) :=
  let p0 : Fin N → Fin 3 → ℝ := fun a k => p a k / √(m a k)
  let p1 : Fin N → Fin 3 → ℝ := fun a k => p0 a k * T + S * xi a k
  let rows : Fin N → Option (Fin 3 → ℝ) := fun a => flipRow f (p0 a) (p1 a)
  if ∀ a, (rows a).isSome then
    let p2 : Fin N → Fin 3 → ℝ := fun a => (rows a).getD 0
    some (fun a k => p2 a k * √(m a k),
      ethermo + (∑ a, dot (p0 a) (p0 a)) * 0.5 - (∑ a, dot (p2 a) (p2 a)) * 0.5)
  else Option.none

/-! ## Thermostats made of thermostats -/

/-- What `bind` does with an energy read from a checkpoint: every one of the `nb` thermostats of a
`ThermoPILE_L`, `ThermoPILE_G` or `ThermoNMGLE` gets an equal share
(`thermostats.py` 409-415, 625-628, 969-975). -/
noncomputable def splitEthermo (nb : ℕ) (prev : ℝ) : Fin nb → ℝ := fun _ => prev / nb

/-- `get_ethermo` (`thermostats.py` 435-443, 985-993, 1313-1317): the sum over the thermostats. -/
noncomputable def getEthermo {nb : ℕ} (e : Fin nb → ℝ) : ℝ := ∑ k, e k

/-- `ThermoPILE_L.get_tauk` (`thermostats.py` 419-433). -/
noncomputable def tauk (pilescale omegak : ℝ) : ℝ := 1 / (2 * pilescale * omegak)

/-- `ThermoPILE_L.step` (`thermostats.py` 449-454): a Langevin thermostat on the momenta of every
normal mode, each with its own time scale and masses. -/
noncomputable def pileL {nb n : ℕ} (dynm : Fin nb → Fin n → ℝ) (kb dt : ℝ) (temp tau : Fin nb → ℝ)
    (xi : Fin nb → Fin n → ℝ) (s : Fin nb → Bath (Fin n)) : Fin nb → Bath (Fin n) :=
  fun k => langevinStep (dynm k) kb (temp k) dt (tau k) (xi k) (s k)

/-- `ThermoPILE_G.step`: as `pileL` with `ThermoSVR` on the centroid, mode 0
(`thermostats.py` 595-623, 449-454). -/
noncomputable def pileG {nb n : ℕ} (dynm : Fin (nb + 1) → Fin n → ℝ) (kb dt : ℝ)
    (temp tau : Fin (nb + 1) → ℝ) (r1 rg : ℝ) (xi : Fin (nb + 1) → Fin n → ℝ)
    (s : Fin (nb + 1) → Bath (Fin n)) : Fin (nb + 1) → Bath (Fin n) :=
  fun k => if k = 0 then svr (dynm 0) (expT dt (tau 0)) (svrK kb (temp 0)) r1 rg (s 0)
    else langevinStep (dynm k) kb (temp k) dt (tau k) (xi k) (s k)

/-- `MultiThermo.step` and `ThermoNMGLEG.step` (`thermostats.py` 1338-1342, 977-983): the thermostats
act one after the other on the same momenta.  A thermostat is given by its own energy and a function
from momenta and energy to new ones; `n` of them. -/
def multi {P : Type} : List (ℝ × (P × ℝ → P × ℝ)) → P → P × List ℝ
  | [], p => (p, [])
  | (e, f) :: r, p =>
    let q := f (p, e)
    let w := multi r q.1
    (w.1, q.2 :: w.2)

end Verif.Thermo
