import Verif.Phys.Cell
import Mathlib.Analysis.SpecialFunctions.Trigonometric.Basic
import Mathlib.Analysis.SpecialFunctions.Exp
import Mathlib.Analysis.Real.Sqrt
import Mathlib.Algebra.BigOperators.Fin
import Mathlib.Data.List.FinRange

/-!
# Built-in potentials

Model of the analytic potentials of `/repo/ipi/pes` and of the force fields of
`/repo/ipi/engine/forcefields.py` that evaluate a formula themselves, with exact real numbers.
Positions are indexed by atom and direction.
-/

namespace Verif.Pes

open Finset Verif.Cell

variable {N : ℕ}

/-- Positions or forces of `N` atoms: entry `(a, d)` is `pos.reshape(-1, 3)[a, d]`. -/
abbrev Cfg (N : ℕ) := Fin N × Fin 3 → ℝ

/-! ## `harmonic` -/

/-- `self.k` and `self.type` of `Harmonic_driver` (`pes/harmonic.py` L25-32). -/
inductive Spring where
  | iso (k : ℝ)
  | aniso (k : Fin 3 → ℝ)

/-- `Harmonic_driver.__init__` (L25-32). -/
def Spring.make (k1 : ℝ) : Option ℝ → Option ℝ → Spring
  | some k2, some k3 => .aniso ![k1, k2, k3]
  | _, _ => .iso k1

/-- The energy of `compute_structure` (L36-55); in the second branch the loop over directions adds
three terms to zero. -/
noncomputable def harmPot : Spring → Cfg N → ℝ
  | .iso k, q => 0.5 * k * ∑ x, q x ^ 2
  | .aniso k, q => 0 + 0.5 * k 0 * (∑ a, q (a, 0) ^ 2) + 0.5 * k 1 * (∑ a, q (a, 1) ^ 2)
      + 0.5 * k 2 * (∑ a, q (a, 2) ^ 2)

/-- The forces of `compute_structure`. -/
def harmForce : Spring → Cfg N → Cfg N
  | .iso k, q => fun x => -k * q x
  | .aniso k, q => fun x => -k x.2 * q x

/-- The factor that multiplies a component in the batched evaluation (`self.k * pos_arr`). -/
def Spring.at : Spring → Fin 3 → ℝ
  | .iso k, _ => k
  | .aniso k, d => k d

/-- The energies of `compute` for a batch (L57-77): sums over atoms and directions. -/
noncomputable def harmBatchPot (s : Spring) (qs : List (Cfg N)) : List ℝ :=
  match s with
  | .iso k => qs.map fun q => 0.5 * k * ∑ a, ∑ d, q (a, d) ^ 2
  | .aniso k => qs.map fun q => 0.5 * ∑ a, ∑ d, k d * q (a, d) ^ 2

/-- The forces of `compute` for a batch. -/
def harmBatchForce (s : Spring) (qs : List (Cfg N)) : List (Cfg N) :=
  qs.map fun q x => -s.at x.2 * q x

/-! ## `DW` and `DW_friction` -/

/-- The attributes of `DoubleWell_driver` that the potential uses. -/
structure Well where
  A : ℝ
  B : ℝ
  delta : ℝ
  k : ℝ

/-- The unit factors `invcm2au` and `A2au` (`pes/doublewell.py` L17-18). -/
structure Conv where
  invcm : ℝ
  ang : ℝ

/-- The last lines of `DoubleWell_driver.__init__` (`pes/doublewell.py` L51-53). -/
noncomputable def Well.make (w v0 m delta : ℝ) : Well :=
  { A := -0.5 * m * w ^ 2, B := m ^ 2 * w ^ 4 / (16 * v0), delta := delta
    k := 1837.36223469 * (3800.0 / 219323.0) ^ 2 }

/-- The values used when one of the four arguments is missing (`pes/doublewell.py` L36-42). -/
noncomputable def Well.default (c : Conv) : Well :=
  Well.make (500 * c.invcm) (2085 * c.invcm) 1837.36223469 0

/-- `DoubleWell_driver.__init__` (`pes/doublewell.py` L34-54): all four arguments, or the defaults. -/
noncomputable def Well.init (c : Conv) : Option ℝ → Option ℝ → Option ℝ → Option ℝ → Well
  | some w, some v0, some m, some delta => Well.make (w * c.invcm) (v0 * c.invcm) m (delta * c.ang)
  | _, _, _, _ => Well.default c

/-- The well used by `DoubleWell_with_friction_driver` (`pes/doublewell_with_friction.py` L42-71): the
attributes computed from the arguments are overwritten by `super().__init__(*args, **kwargs)`, which
is called without them. -/
noncomputable def Well.initFriction (c : Conv) (_w _v0 _m _delta : ℝ) : Well := Well.init c none none none none

/-- The energy returned by `DoubleWell_driver.compute_structure` (`pes/doublewell.py` L56-79), before
it is used as a number: an array with one entry for each atom, as `pot +=` adds an array over the
atoms and then two numbers. -/
noncomputable def wellPotArray (w : Well) (q : Cfg N) : Fin N → ℝ := fun a =>
  0 + (w.A * (q (a, 0) - w.delta) ^ 2 + w.B * q (a, 0) ^ 4) + 0.5 * w.k * (∑ b, q (b, 1) ^ 2)
    + 0.5 * w.k * ∑ b, q (b, 2) ^ 2

/-- The energy as a number: the conversion of an array to a number works for arrays of one entry. -/
noncomputable def wellPot : {N : ℕ} → Well → Cfg N → Option ℝ
  | 1, w, q => some (wellPotArray w q 0)
  | _, _, _ => none

/-- The forces of `DoubleWell_driver.compute_structure`. -/
noncomputable def wellForce (w : Well) (q : Cfg N) : Cfg N
  | (a, 0) => -2.0 * w.A * (q (a, 0) - w.delta) - 4.0 * w.B * q (a, 0) ^ 3
  | (a, 1) => -w.k * q (a, 1)
  | (a, 2) => -w.k * q (a, 2)

/-! ## The coupling function of the friction and bath potentials -/

/-- The parameters of the coupling. -/
structure Coup where
  eps1 : ℝ
  eps2 : ℝ
  deltaQ : ℝ

/-- `SD` (`pes/bath.py` L53-57, `pes/doublewell_with_friction.py` L79-83). -/
noncomputable def sd (c : Coup) (q : ℝ) : ℝ :=
  1.0 + c.eps1 * Real.exp (-0.5 * (q / c.deltaQ) ^ 2) + c.eps2 * Real.tanh (q / c.deltaQ)

/-- `dSD_dq` (`pes/bath.py` L59-66, `pes/doublewell_with_friction.py` L85-92). -/
noncomputable def dsd (c : Coup) (q : ℝ) : ℝ :=
  let dx := q / c.deltaQ
  q * (c.eps1 * Real.exp (-0.5 * dx ^ 2) * (-dx / c.deltaQ) + c.eps2 * (1 - Real.tanh dx ^ 2) / c.deltaQ) + sd c q

/-- The friction reported by `get_friction_tensor` (`pes/doublewell_with_friction.py` L94-102), its only
entry that is not zero. -/
noncomputable def friction (c : Coup) (eta0 x : ℝ) : ℝ := eta0 * dsd c x ^ 2

/-- A bath: the mass, squared frequencies and coefficients (`pes/bath.py` L31-47), and whether `w_c > 0`. -/
structure Bath (n : ℕ) where
  m : ℝ
  omega2 : Fin n → ℝ
  coef : Fin n → ℝ
  on : Bool

/-- `S` (`pes/bath.py` L49-51). -/
noncomputable def sfun (c : Coup) (q : ℝ) : ℝ := q * sd c q

/-- `aux` in `compute_structure` (`pes/bath.py` L76). -/
noncomputable def bathAux {n : ℕ} (b : Bath n) (c : Coup) (q : ℝ) (x : Fin n → ℝ) (i : Fin n) : ℝ :=
  x i - b.coef i * sfun c q / (b.m * b.omega2 i)

/-- The energy of `Harmonic_Bath_explicit.compute_structure` (`pes/bath.py` L68-81). -/
noncomputable def bathPot {n : ℕ} (b : Bath n) (c : Coup) (q : ℝ) (x : Fin n → ℝ) : ℝ :=
  if b.on then ∑ i, 0.5 * b.m * b.omega2 i * bathAux b c q x i ^ 2 else 0

/-- The force on the coordinate coupled to the bath. -/
noncomputable def bathFq {n : ℕ} (b : Bath n) (c : Coup) (q : ℝ) (x : Fin n → ℝ) : ℝ :=
  if b.on then ∑ i, bathAux b c q x i * b.coef i * dsd c q else 0

/-- The forces on the bath. -/
noncomputable def bathFx {n : ℕ} (b : Bath n) (c : Coup) (q : ℝ) (x : Fin n → ℝ) : Fin n → ℝ := fun i =>
  if b.on then 0 - b.m * b.omega2 i * bathAux b c q x i else 0

/-! ## `MorseHarmonic` -/

/-- The parameters stored by `MorseHarmonic_driver.__init__` (`pes/morse.py` L62-66). -/
structure Morse where
  De : ℝ
  a : ℝ
  z0 : ℝ
  k : ℝ

/-- `z` (`pes/morse.py` L96). -/
def morseZ (p : Morse) (q : Cfg N) (a : Fin N) : ℝ := (q (a, 2) - p.z0) * p.a

/-- The energy of `compute_structure` (`pes/morse.py` L89-110). -/
noncomputable def morsePot (p : Morse) (q : Cfg N) : ℝ :=
  ∑ a, (p.De * (morseZ p q a ^ 2 - morseZ p q a ^ 3 + 7.0 / 12.0 * morseZ p q a ^ 4)
    + p.k / 2 * (q (a, 0) ^ 2 + q (a, 1) ^ 2))

/-- The forces of `compute_structure`. -/
noncomputable def morseForce (p : Morse) (q : Cfg N) : Cfg N
  | (a, 2) => -p.De * p.a * (2 * morseZ p q a - 3 * morseZ p q a ^ 2 + 7.0 / 3.0 * morseZ p q a ^ 3)
  | (a, 0) => -p.k * q (a, 0)
  | (a, 1) => -p.k * q (a, 1)

/-! ## `spline` -/

/-- The energy of `Spline_driver` (`pes/spline.py` L78-83, L113-115) for one atom; `e` is the
interpolation of the tabulated energies. -/
noncomputable def splinePot (e : ℝ → ℝ) (k : ℝ) (q : Cfg 1) : ℝ :=
  e (5 * q (0, 0)) + 0.5 * k * (q (0, 1) ^ 2 + q (0, 2) ^ 2)

/-- The forces of `Spline_driver` (L85-94). -/
noncomputable def splineForce (e : ℝ → ℝ) (k : ℝ) (q : Cfg 1) : Cfg 1
  | (_, 0) => -(e (5 * q (0, 0) + 0.001) - e (5 * q (0, 0) - 0.001)) / (2 * 0.001)
  | (_, 1) => -k * q (0, 1)
  | (_, 2) => -k * q (0, 2)

/-! ## `Spherical_LJ` -/

/-- The parameters after conversion of units (`pes/spherical_LJ.py` L175-180), and which atoms have one
of the listed symbols (L147-151). -/
structure Sphere (N : ℕ) where
  center : Fin 3 → ℝ
  radius : ℝ
  sigma : ℝ
  epsilon : ℝ
  p1 : ℕ
  p2 : ℕ
  on : Fin N → Bool

/-- `np.linalg.norm(delta)` (L183, L197). -/
noncomputable def sphereDist (s : Sphere N) (q : Cfg N) (a : Fin N) : ℝ := √(∑ d, (q (a, d) - s.center d) ^ 2)

/-- `r` (L183). -/
noncomputable def sphereR (s : Sphere N) (q : Cfg N) (a : Fin N) : ℝ := s.radius - sphereDist s q a

/-- The energy (L191-194). -/
noncomputable def spherePot (s : Sphere N) (q : Cfg N) : ℝ :=
  ∑ a, if s.on a then
    s.epsilon * (2.0 / 15.0 * (s.sigma / sphereR s q a) ^ s.p1 - (s.sigma / sphereR s q a) ^ s.p2) else 0

/-- `dU_dr` (L200-203). -/
noncomputable def sphereD (s : Sphere N) (r : ℝ) : ℝ :=
  -s.epsilon * (-(s.p1 : ℝ) * (2.0 / 15.0) * s.sigma ^ s.p1 / r ^ (s.p1 + 1) + s.p2 * s.sigma ^ s.p2 / r ^ (s.p2 + 1))

/-- The forces (L157, L205-208). -/
noncomputable def sphereForce (s : Sphere N) (q : Cfg N) : Cfg N := fun x =>
  if s.on x.1 then -sphereD s (sphereR s q x.1) * ((q x - s.center x.2) / sphereDist s q x.1) else 0

/-! ## Sums over pairs: `FFLennardJones` and `FFdmd` -/

/-- The body of the loop over `i` in `FFLennardJones.evaluate` and `FFdmd.evaluate`
(`engine/forcefields.py` L673-684, L766-780): `u i j` is the energy of a pair and `g i j` the force on
`i` from `j`; energy and forces are accumulated, the forces as `f[i] += …` and `f[:i] -= …`. -/
noncomputable def pairRow (u : Fin N → Fin N → ℝ) (g : Fin N → Fin N → Fin 3 → ℝ) (s : ℝ × Cfg N) (i : Fin N) :
    ℝ × Cfg N :=
  (s.1 + ∑ j with j < i, u i j,
   fun x => if x.1 = i then s.2 x + ∑ j with j < i, g i j x.2
     else if x.1 < i then s.2 x - g i x.1 x.2 else s.2 x)

/-- The loop.  Python starts at the second atom; for the first one there is nothing to add. -/
noncomputable def pairLoop (u : Fin N → Fin N → ℝ) (g : Fin N → Fin N → Fin 3 → ℝ) : ℝ × Cfg N :=
  (List.finRange N).foldl (pairRow u g) (0, fun _ => 0)

/-- The separation `q[i] - q[j]`. -/
def sep (q : Cfg N) (i j : Fin N) : Fin 3 → ℝ := fun d => q (i, d) - q (j, d)

/-- `(dij**2).sum()`. -/
def norm2 (d : Fin 3 → ℝ) : ℝ := ∑ k, d k ^ 2

/-- `x6` (L677). -/
noncomputable def x6 (sigma2 : ℝ) (d : Fin 3 → ℝ) : ℝ := (sigma2 / norm2 d) ^ 3

/-- `FFLennardJones` (L664-690): `epsfour = 4 eps`, `sixepsfour = 6 epsfour`, `sigma2 = sigma sigma`. -/
noncomputable def lj (eps sigma : ℝ) (q : Cfg N) : ℝ × Cfg N :=
  let s2 := sigma * sigma
  let r := pairLoop (fun i j => x6 s2 (sep q i j) ^ 2 - x6 s2 (sep q i j))
    (fun i j d => sep q i j d *
      (6 * (eps * 4) * (2.0 * x6 s2 (sep q i j) ^ 2 - x6 s2 (sep q i j)) / norm2 (sep q i j)))
  (r.1 * (eps * 4), r.2)

/-- The energy and forces of `FFdmd.evaluate` (L750-795); `c` is `coupling`, a list by pairs, and
`periodic` the sine factor; `vector_separation` (`utils/distance.py` L12-42) is `minimumDistance`. -/
noncomputable def dmd (c : ℕ → ℝ) (periodic : ℝ) (h ih : Mat) (q : Cfg N) : ℝ × Cfg N :=
  let s := fun i j => minimumDistance h ih (fun d => q (i, d)) (fun d => q (j, d))
  let cij := fun i j : Fin N => c ((i : ℕ) * (i - 1) / 2 + j)
  pairLoop (fun i j => cij i j * √(norm2 (s i j)) * periodic)
    (fun i j d => s i j d * -(cij i j / √(norm2 (s i j))) * periodic)

/-- The virial of `FFdmd.evaluate` (L781-786). -/
noncomputable def dmdVir (c : ℕ → ℝ) (periodic : ℝ) (h ih : Mat) (q : Cfg N) (k l : Fin 3) : ℝ :=
  let s := fun i j => minimumDistance h ih (fun d => q (i, d)) (fun d => q (j, d))
  let cij := fun i j : Fin N => c ((i : ℕ) * (i - 1) / 2 + j)
  ∑ i, ∑ j with j < i, s i j k * -(cij i j / √(norm2 (s i j))) * periodic * s i j l

/-! ## `FFDebye` -/

/-- The energy (`engine/forcefields.py` L848-870); `n` is the number of coordinates. -/
noncomputable def debyePot {n : ℕ} (H : Fin n → Fin n → ℝ) (xref : Fin n → ℝ) (vref : ℝ) (q : Fin n → ℝ) : ℝ :=
  vref + 0.5 * ∑ i, (q i - xref i) * ∑ j, H i j * (q j - xref j)

/-- The forces. -/
def debyeForce {n : ℕ} (H : Fin n → Fin n → ℝ) (xref : Fin n → ℝ) (q : Fin n → ℝ) : Fin n → ℝ :=
  fun i => -∑ j, H i j * (q j - xref j)

/-! ## `FFCavPhSocket` with charges -/

/-- The parameters of `PhotonDriver` for one mode; `dense` is `ph_rep == "dense"`, where the photon is
one atom instead of two (`engine/forcefields.py` L1880-1945). -/
structure Cavity where
  E0 : ℝ
  omega : ℝ
  dense : Bool

/-- `n_photon_3`: the number of photon coordinates. -/
def Cavity.dim (c : Cavity) : ℕ := if c.dense then 3 else 6

/-- The index of the coordinate coupled to the dipole along x: `pos_ph[:3:3]` or `pos_ph[::3]`. -/
def Cavity.ix (c : Cavity) : Fin c.dim := ⟨0, by unfold Cavity.dim; split <;> decide⟩

/-- The index coupled to the dipole along y: `pos_ph[4::3]` or `pos_ph[1::3]`. -/
def Cavity.iy (c : Cavity) : Fin c.dim := ⟨if c.dense then 1 else 4, by unfold Cavity.dim; split <;> decide⟩

/-- `get_ph_energy` (L1964-2006); `dx`, `dy` are the dipole, `ph` the photon coordinates. -/
noncomputable def Cavity.energy (c : Cavity) (dx dy : ℝ) (ph : Fin c.dim → ℝ) : ℝ :=
  (∑ i, 0.5 * c.omega ^ 2 * ph i ^ 2) + c.E0 * dx * ph c.ix + c.E0 * dy * ph c.iy
    + c.E0 ^ 2 / 2.0 / c.omega ^ 2 * (dx ^ 2 + dy ^ 2)

/-- `get_ph_forces` (L2008-2036). -/
noncomputable def Cavity.phForce (c : Cavity) (dx dy : ℝ) (ph : Fin c.dim → ℝ) : Fin c.dim → ℝ := fun i =>
  -c.omega ^ 2 * ph i - (if i = c.ix then c.E0 * dx else 0) - (if i = c.iy then c.E0 * dy else 0)

/-- `coeff_x`, `coeff_y` of `get_nuc_cav_forces` (L2057-2071). -/
noncomputable def Cavity.coeff (c : Cavity) (dip : ℝ) (e : ℝ) : ℝ := c.E0 * e + c.E0 ^ 2 / c.omega ^ 2 * dip

/-- The forces on the nuclei from partial charges (L2073-2076). -/
noncomputable def Cavity.nucForce (c : Cavity) (z : Fin N → ℝ) (dx dy : ℝ) (ph : Fin c.dim → ℝ) : Cfg N
  | (a, 0) => -(c.coeff dx (ph c.ix) * z a)
  | (a, 1) => -(c.coeff dy (ph c.iy) * z a)
  | (_, 2) => 0

/-- The forces on the nuclei from a dipole surface (L2077-2084): `der a k d` is the derivative of
component `k` of the dipole with respect to coordinate `d` of atom `a`, entry `9a + 3k + d`. -/
noncomputable def Cavity.nucForceDer (c : Cavity) (der : Fin N → Fin 3 → Fin 3 → ℝ) (dx dy : ℝ) (ph : Fin c.dim → ℝ) :
    Cfg N :=
  fun x => -(c.coeff dx (ph c.ix) * der x.1 0 x.2) - c.coeff dy (ph c.iy) * der x.1 1 x.2

/-- `calc_dipole_xyz_mm` (L2150-2188): the dipole of the partial charges, component `d`. -/
def dipole (z : Fin N → ℝ) (q : Cfg N) (d : Fin 3) : ℝ := ∑ a, q (a, d) * z a

/-- The energy returned by `queue` with photons (L2360-2470) without the offset (C18): `mol` is the
energy of the molecules.  The coordinates are those of the atoms followed by those of the photons. -/
noncomputable def Cavity.total (c : Cavity) (mol : Cfg N → ℝ) (dip : Cfg N → Fin 3 → ℝ)
    (r : (Fin N × Fin 3) ⊕ Fin c.dim → ℝ) : ℝ :=
  mol (fun x => r (.inl x)) + c.energy (dip (fun x => r (.inl x)) 0) (dip (fun x => r (.inl x)) 1) (fun i => r (.inr i))

/-- The forces returned by `queue` with photons: `fmol` those of the client, `fnuc` the forces of the
cavity on the nuclei. -/
noncomputable def Cavity.forces (c : Cavity) (fmol fnuc : Cfg N) (dx dy : ℝ) (ph : Fin c.dim → ℝ) :
    (Fin N × Fin 3) ⊕ Fin c.dim → ℝ
  | .inl x => fmol x + fnuc x
  | .inr i => c.phForce dx dy ph i

end Verif.Pes
