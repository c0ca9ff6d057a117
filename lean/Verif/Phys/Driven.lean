import Mathlib.Analysis.SpecialFunctions.Exp
import Mathlib.Analysis.SpecialFunctions.Trigonometric.Basic
import Mathlib.Algebra.BigOperators.Fin
import Verif.Phys.Mts

/-!
# Dynamics driven by an electric field

Sources: `ipi/engine/motion/driven_dynamics.py`, `ipi/engine/motion/dynamics.py` 239-245 (`Dynamics.step`),
`ipi/engine/properties.py` 1523-1576 and 2975-2990 (what is printed).  Numbers are real numbers.
-/

namespace Verif.Driven

/-- The parameters of `ElectricField` (`driven_dynamics.py` 397-412).  An infinite `sigma` is `none`. -/
structure Field where
  amp : Fin 3 → ℝ
  freq : ℝ
  phase : ℝ
  peak : ℝ
  sigma : Option ℝ

/-- `Eenvelope` with `_Eenvelope_is_on` (`driven_dynamics.py` 443-456). -/
noncomputable def envelope (f : Field) (time : ℝ) : ℝ :=
  match f.sigma with
  | some s => if f.peak > 0 then Real.exp (-0.5 * ((time - f.peak) / s) ^ 2) else 1
  | none => 1

/-- `_get_Ecos` (`driven_dynamics.py` 458-460). -/
noncomputable def ecos (f : Field) (time : ℝ) : ℝ := Real.cos (f.freq * time + f.phase)

/-- `Efield` (`driven_dynamics.py` 428-441) for a single time, with the ensembles of `driven_integrators`, which are the
only ones the input allows. -/
noncomputable def efield (f : Field) (time : ℝ) (k : Fin 3) : ℝ := ecos f time * envelope f time * f.amp k

/-- `EDAforces` (`driven_dynamics.py` 130-135): `Constants.e * Z @ E` (`Constants.e` is one). -/
noncomputable def edaForces {ι : Type} (Z : ι → Fin 3 → ℝ) (E : Fin 3 → ℝ) (i : ι) : ℝ := 1 * ∑ k, Z i k * E k

/-- The momenta and positions of all beads. -/
structure St (ι : Type) where
  q : ι → ℝ
  p : ι → ℝ

/-- `td_pstep` (`driven_dynamics.py` 111-128) at level 0: the force of the field at `time` for `pdt[0]`, then the
constraints.  `bec` gives the charges at the positions (they may be computed by the driver). -/
noncomputable def tdPstep {ι : Type} (bec : (ι → ℝ) → ι → Fin 3 → ℝ) (E : ℝ → Fin 3 → ℝ) (con : St ι → St ι) (pdt0 time : ℝ) (s : St ι) :
    St ι :=
  con { s with p := fun i => s.p i + edaForces (bec s.q) (E time) i * pdt0 }

/-- `EDANVEIntegrator.step` and `EDANVTIntegrator.step` (`driven_dynamics.py` 162-185); `inner` is the step of the
ensemble without the field. -/
noncomputable def step {ι : Type} (bec : (ι → ℝ) → ι → Fin 3 → ℝ) (E : ℝ → Fin 3 → ℝ) (con inner : St ι → St ι) (nmts : List ℕ)
    (dt time : ℝ) (s : St ι) : St ι :=
  let pdt0 := (Verif.Mts.pdt dt nmts).headD 0
  tdPstep bec E con pdt0 (time + dt) (inner (tdPstep bec E con pdt0 time s))

/-- `Dynamics.step` (`dynamics.py` 239-245), repeated: the clock is advanced after each step. -/
noncomputable def run {ι : Type} (bec : (ι → ℝ) → ι → Fin 3 → ℝ) (E : ℝ → Fin 3 → ℝ) (con inner : St ι → St ι) (nmts : List ℕ)
    (dt : ℝ) : ℕ → ℝ × St ι → ℝ × St ι
  | 0, x => x
  | n + 1, x => run bec E con inner nmts dt n (x.1 + dt, step bec E con inner nmts dt x.1 x.2)

/-- The check of charges sent by a driver (`driven_dynamics.py` 265-293), for the charges of one bead: the number of rows,
the number of columns, and the mean over the atoms, whose components must not exceed the threshold times the number of
atoms.  `np.allclose(x, 0, atol)` is `|x| <= atol`. -/
noncomputable def becAccepted (natoms : ℕ) (thr : ℝ) (rows : ℕ) (cols : ℕ) (Z : Fin natoms → Fin 3 → Fin 3 → ℝ) : Bool :=
  if rows ≠ 3 * natoms then false
  else if cols ≠ 3 then false
  else decide (∀ i k, |(∑ a, Z a i k) / natoms| ≤ thr * natoms)

/-- The reshaping of fixed charges (`_get_fixed_BEC`, `driven_dynamics.py` 295-314): it succeeds when the file holds as
many numbers as there are for all beads. -/
def fixedAccepted (nbeads natoms numbers : ℕ) : Bool := numbers == nbeads * (3 * natoms) * 3

/-- What the driver sent with the forces: dipoles under their own name, or texts. -/
inductive Extras
  | dipole (d : List (List ℝ))
  | raw (texts : List String)
  | other

/-- An array of numbers, or of strings. -/
inductive Arr
  | nums (l : List ℝ)
  | strs (l : List String)

/-- A number times an array: `numpy` has no product of a number and a string and raises. -/
noncomputable def scale (c : ℝ) : Arr → Option Arr
  | .nums l => some (.nums (l.map (c * ·)))
  | .strs _ => none

/-- One turn of the loop over texts in `_get_dipole` (`driven_dynamics.py` 369-385): the strings found by the regular
expression (`findall`, `inAng` says whether the text names the unit `[eAng]`) must be three; they are multiplied by the
factor and stored in a row of numbers. -/
noncomputable def textRow (findall : String → List String) (inAng : String → Bool) (angstrom : ℝ) (text : String) : Option (List ℝ) :=
  let factor := if inAng text then angstrom else 1
  let found := findall text
  if found.length ≠ 3 then none
  else match scale factor (.strs found) with
    | some (.nums l) => some l
    | _ => none

/-- `_get_dipole` (`driven_dynamics.py` 343-391); `none` stands for an array of `nan`, into which every error is turned.
`labelled` says whether a text contains `Total dipole moment`.  In the loop over texts the result is returned at the end of
the first turn, the other rows remaining `nan` (`none`). -/
noncomputable def getDipole (labelled : String → Bool) (findall : String → List String) (inAng : String → Bool) (angstrom : ℝ) (nbeads : ℕ) :
    Extras → Option (List (Option (List ℝ)))
  | .dipole d =>
    if (d.take nbeads).length = nbeads ∧ (d.take nbeads).all (fun r => r.length == 3) then some ((d.take nbeads).map some) else none
  | .raw texts =>
    if texts.all labelled then
      match texts.take nbeads with
      | t :: _ => (textRow findall inAng angstrom t).map fun r => some r :: List.replicate (nbeads - 1) none
      | [] => none
    else none
  | .other => none

/-- `get_interaction_energy` (`properties.py` 1569-1576). -/
noncomputable def interactionEnergy (dipole E : Fin 3 → ℝ) : ℝ := ∑ k, dipole k * E k

/-- `dipole_dtime` (`driven_dynamics.py` 137-157) for one bead: the charges times the velocities. -/
noncomputable def dipoleDt {ι : Type} [Fintype ι] (Z : ι → Fin 3 → ℝ) (p m : ι → ℝ) (k : Fin 3) : ℝ :=
  1 * ∑ i, Z i k * (p i / m i)

end Verif.Driven
