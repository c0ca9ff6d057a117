import Mathlib.Data.Real.Basic
import Mathlib.LinearAlgebra.Matrix.Determinant.Basic

/-!
# Calculators of the atomic simulation environment as drivers

Model of `ASEDriver.convert_units`, `compute_structure` and `post_process`
(`/repo/ipi/pes/_ase.py` L72-151), with exact real numbers.  Extra results of the calculator
(L134-149) are not modelled.
-/

namespace Verif.Ase

/-- A vector. -/
abbrev V3 := Fin 3 → ℝ

/-- A matrix. -/
abbrev M3 := Fin 3 → Fin 3 → ℝ

/-- The exceptions. -/
inductive Err | valueError
  deriving DecidableEq, Repr

/-- The units that are used: `electronvolt`, `angstrom` and `ev/ang`. -/
structure Conv where
  ev : ℝ
  ang : ℝ
  evang : ℝ

/-- The stress returned by a calculator: six numbers, a matrix, or a vector of another length. -/
inductive Stress where
  | voigt (s : Fin 6 → ℝ)
  | full (s : M3)
  | vec (n : ℕ)

/-- The properties returned by a calculator for a template of `N` atoms. -/
structure Props (N : ℕ) where
  energy : ℝ
  forces : Fin N → V3
  stress : Stress

/-- The arguments `has_energy`, `has_forces` and `has_stress` (L45-62). -/
structure Caps where
  energy : Bool
  forces : Bool
  stress : Bool

/-- `structure.positions[:] = pos` (L90) for a template of `N` atoms: numpy repeats a single row
for all atoms. -/
def assign {n : ℕ} (N : ℕ) (pos : Fin n → V3) : Except Err (Fin N → V3) :=
  if h : n = N then .ok (fun a => pos (Fin.cast h.symm a))
  else if h : n = 1 then .ok (fun _ => pos (Fin.cast h.symm 0))
  else .error .valueError

/-- `convert_units` (L72-78). -/
noncomputable def convertUnits {n : ℕ} (u : Conv) (cell : M3) (pos : Fin n → V3) :
    M3 × (Fin n → V3) :=
  (fun i j => cell j i / u.ang, fun a k => pos a k / u.ang)

/-- The indices `[0, 5, 4, 5, 1, 3, 4, 3, 2]` (L109), of the entry `3 * i + j`. -/
def unvoigt : Fin 3 → Fin 3 → Fin 6 := ![![0, 5, 4], ![5, 1, 3], ![4, 3, 2]]

/-- `np.abs(stress - stress.T).sum()` (L116). -/
noncomputable def asym (s : M3) : ℝ := ∑ i, ∑ j, |s i j - s j i|

open scoped Classical in
/-- The stress after the checks (L106-121), as a matrix; the nine numbers that come from six are
reshaped by the reader of the result. -/
noncomputable def checked : Stress → Except Err M3
  | .voigt s => .ok (fun i j => s (unvoigt i j))
  | .full s => if asym s > 1e-6 then .error .valueError else .ok s
  | .vec _ => .error .valueError

/-- `post_process` (L99-151) for a structure with the given cell. -/
noncomputable def postProcess {N : ℕ} (u : Conv) (c : Caps) (cell : M3) (p : Props N) :
    Except Err (ℝ × (Fin N → V3) × M3) :=
  let pot := if c.energy then p.energy else 0
  let force : Fin N → V3 := if c.forces then p.forces else fun _ _ => 0
  let stress := if c.stress then p.stress else .vec 9
  match checked stress with
  | .error e => .error e
  | .ok s =>
    let virCalc : M3 := fun i j => -s i j * |(Matrix.of cell).det|
    .ok (u.ev * pot, fun a k => u.evang * force a k,
      match stress with
      | .voigt _ => fun i j => u.ev * virCalc i j
      | _ => fun i j => u.ev * virCalc j i)

/-- `compute_structure` (L80-97); `mdl` is the calculator, a function of the positions and of
the cell vectors as rows. -/
noncomputable def compute {n N : ℕ} (u : Conv) (c : Caps)
    (mdl : (Fin N → V3) → M3 → Props N) (cell : M3) (pos : Fin n → V3) :
    Except Err (ℝ × (Fin N → V3) × M3) :=
  let cp := convertUnits u cell pos
  match assign N cp.2 with
  | .error e => .error e
  | .ok q => postProcess u c cp.1 (mdl q cp.1)

/-- The entries of `/repo/ipi/utils/units.py` (L209, L255, L296). -/
noncomputable def table : Conv := ⟨0.036749326, 1.8897261, 0.019446904⟩

end Verif.Ase
