import Verif.Phys.NormalModes
import Mathlib.Algebra.BigOperators.Fin
import Mathlib.Logic.Function.Iterate

/-!
# Identical particles in the ring polymer, and its propagation in Cartesian coordinates

Model of the parts of `/repo/ipi/engine/normalmodes.py` that choose the bosons, put their exchange energy and forces together
with the springs of the other atoms, and propagate the free ring polymer with the scheme `bab`; of the selection of atoms in
`get_kintd` of `/repo/ipi/engine/properties.py`.  The exchange energy and forces themselves are the subject of C37 and C38 and are
given numbers here.  Real numbers are exact.
-/

namespace Verif.Boson

open Finset

/-- What `NormalModes.bosons` can be: an array of numbers, or the pair of `InputBosons.fetch` (`ipi/inputs/normalmodes.py`
L131-136).  The words of a list of indices are whole numbers here (`astype(int)`). -/
inductive Spec where
  | array (l : List ℤ)
  | index (l : List ℤ)
  | label (l : List String)

/-- `resolve_bosons` (`normalmodes.py` L407-435).  `none` stands for the `ValueError`s. -/
def resolve (names : List String) : Spec → Option (List ℤ)
  | .array l => some l
  | .index l => if l.any (fun x => decide (x < 0) || decide ((names.length : ℤ) ≤ x)) then none else some l
  | .label l =>
    if l.any (fun x => !names.contains x) then none
    else some (List.map (fun i : ℕ => (i : ℤ)) ((List.range names.length).filter fun i : ℕ => l.contains (names.getD i "")))

section
variable {P N : ℕ}

/-- Coordinates, momenta or forces: of a bead (or a normal mode), an atom and a direction. -/
abbrev Arr (P N : ℕ) := Fin P → Fin N → Fin 3 → ℝ

/-- The masses, the frequencies `omegak` and `o_omegak`, the open paths and the bosons of a ring polymer. -/
structure Par (P N : ℕ) where
  m : Fin N → ℝ
  w : Fin P → ℝ
  ow : Fin P → ℝ
  opens : List (Fin N)
  bosons : List (Fin N)

/-- The term that is taken away for a boson, `normalmodes.py` L771-781. -/
def closed (g : Par P N) (qnm : Arr P N) (j : Fin N) : ℝ :=
  ∑ k, g.m j * g.w k ^ 2 * (qnm k j 0 ^ 2 + qnm k j 1 ^ 2 + qnm k j 2 ^ 2)

/-- The correction for an open path, L753-762. -/
def opened (g : Par P N) (qnm : Arr P N) (j : Fin N) : ℝ :=
  ∑ k, g.m j * (g.ow k ^ 2 - g.w k ^ 2) * (qnm k j 0 ^ 2 + qnm k j 1 ^ 2 + qnm k j 2 ^ 2)

/-- The potential of `get_vspring_and_fspring` (L731-795); `vb` is that of the exchange. -/
noncomputable def vspring (g : Par P N) (qnm : Arr P N) (vb : ℝ) : ℝ :=
  if P = 1 then 0
  else
    (if g.bosons.length < N then
      0.5 * (∑ k, g.w k ^ 2 * ∑ a, ∑ d, (qnm k a d * √(g.m a)) ^ 2
        + (g.opens.map (opened g qnm)).sum - (g.bosons.map (closed g qnm)).sum)
     else 0)
    + (if g.bosons = [] then 0 else vb)

/-- Where the last entry for an atom is in the list: with a list of indices, numpy's assignment keeps the last value. -/
def lastIdx (l : List (Fin N)) (a : Fin N) : ℕ := l.length - 1 - l.reverse.idxOf a

/-- The forces of `get_vspring_and_fspring`: `dist` are those of the springs (L747-769, 784), `fb b i` those of the exchange
on the bead `b` of the `i`-th boson. -/
def fspring (g : Par P N) (dist : Arr P N) (fb : Fin P → ℕ → Fin 3 → ℝ) : Arr P N := fun b a d =>
  if P = 1 then 0
  else if a ∈ g.bosons then fb b (lastIdx g.bosons a) d
  else if g.bosons.length < N then dist b a d
  else 0

/-- The propagators of the free ring polymer. -/
inductive Prop' where
  | exact
  | cayley
  | bab
  deriving DecidableEq

/-- What `free_qstep` (L825-918) does. -/
inductive Did where
  | nothing
  | babstep
  | modes
  | notImplemented
  deriving DecidableEq

/-- The branches of `free_qstep` (L840-878). -/
def branch (g : Par P N) (pr : Prop') : Did :=
  if P = 1 then .nothing
  else if pr = .bab then (if g.opens ≠ [] then .notImplemented else .babstep)
  else if g.bosons ≠ [] then .notImplemented else .modes

end

/-! ### The kinetic energy of a selection of atoms -/

/-- The argument of `get_kintd`: nothing, a whole number or a label. -/
inductive Arg where
  | all
  | index (i : ℤ)
  | label (s : String)

def Arg.iatom : Arg → ℤ
  | .index i => i
  | _ => -1

def Arg.latom : Arg → String
  | .label s => s
  | _ => ""

/-- `atoms_included` of `_atom_property_distinguishability_well_defined` (`properties.py` L1443-1449); atoms are numbers here,
so that an index below zero selects none. -/
def included (names : List String) (a : Arg) (i : ℕ) : Bool :=
  decide (i < names.length) &&
    (if a.iatom ≠ -1 then decide ((i : ℤ) = a.iatom) else if a.latom ≠ "" then decide (a.latom = names.getD i "") else true)

/-- The test of the loops over atoms (L1485): `atom != "" and iatom != i and latom != names[i]` leaves the atom out. -/
def looped (names : List String) (a : Arg) (i : ℕ) : Bool :=
  !((match a with | .all => false | _ => true) && decide (a.iatom ≠ (i : ℤ)) && decide (a.latom ≠ names.getD i ""))

/-- `get_kintd` (L1396-1436): `k i` is the estimator of a distinguishable atom, `kb` that of all bosons.  `none` stands for the
`IndexError`s. -/
noncomputable def kintd (names : List String) (bosons : List ℕ) (k : ℕ → ℝ) (kb : ℝ) (a : Arg) : Option ℝ :=
  if (names.length : ℤ) ≤ a.iatom then none
  else if bosons.any (included names a) && !bosons.all (included names a) then none
  else some (((List.range names.length).filter fun i => looped names a i && !bosons.contains i).map k).sum
    |>.map fun r => if bosons.any (included names a) then r + kb else r

/-! ### The propagation in Cartesian coordinates -/

section
variable {P : ℕ} {ι : Type*}

/-- Positions and momenta of the beads. -/
@[ext] structure St (P : ℕ) (ι : Type*) where
  q : Fin P → ι → ℝ
  p : Fin P → ι → ℝ

/-- The mean over beads, the centroid. -/
noncomputable def mean (x : Fin P → ι → ℝ) (i : ι) : ℝ := (∑ b, x b i) / P

/-- One pass of the loop of `free_babstep` (L818-823); `F` are the spring forces as a function of the positions. -/
noncomputable def verlet (m : ι → ℝ) (F : (Fin P → ι → ℝ) → Fin P → ι → ℝ) (dt : ℝ) (s : St P ι) : St P ι :=
  let p1 : Fin P → ι → ℝ := fun b i => s.p b i + 0.5 * dt * F s.q b i
  let q1 : Fin P → ι → ℝ := fun b i => s.q b i + dt * p1 b i / m i
  ⟨q1, fun b i => p1 b i + 0.5 * dt * F q1 b i⟩

/-- `qcstep` (`dynamics.py` L440-443) moves the centroid; adding to the mode `0`, which is `sqrt(nbeads)` times the centroid
(C36), moves all beads by the same vector. -/
noncomputable def qcstep (m : ι → ℝ) (dt : ℝ) (s : St P ι) : St P ι := ⟨fun b i => s.q b i + mean s.p i * (dt / m i), s.p⟩

/-- The first statement of `free_babstep` (L811-813). -/
noncomputable def revert (m : ι → ℝ) (dt : ℝ) (s : St P ι) : St P ι := ⟨fun b i => s.q b i - mean s.p i / m i * dt, s.p⟩

/-- `free_babstep` (L797-823).  `none` stands for the `ZeroDivisionError` when `nmts` is zero; `range` of a negative number is
empty. -/
noncomputable def babstep (m : ι → ℝ) (F : (Fin P → ι → ℝ) → Fin P → ι → ℝ) (dt : ℝ) (nmts : ℤ) (s : St P ι) : Option (St P ι) :=
  if P = 1 then some s
  else if nmts = 0 then none
  else some ((verlet m F (dt / nmts))^[nmts.toNat] (revert m dt s))

end

end Verif.Boson
