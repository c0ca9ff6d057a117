import Mathlib.Data.Real.Basic

/-!
# Batches in the base class of the python potentials and in the ideal gas

Model of `Dummy_driver.compute` (`/repo/ipi/pes/dummy.py`) and of `Gas_driver` (`/repo/ipi/pes/gas.py`).
-/

namespace Verif.GasDrv

/-- An argument: one value or a python list of values. -/
inductive Arg (α : Type) where
  | one (a : α)
  | many (l : List α)

/-- What goes wrong. -/
inductive Err where
  | value
  | index
  | other
  deriving DecidableEq

/-- `Dummy_driver.compute` (`pes/dummy.py` L41-52) for any `compute_structure`.  What this does with one
cell and a list of positions is left out. -/
def compute {C P R : Type} (single : C → P → R) : Arg C → Arg P → Except Err (Arg R)
  | .many _, .one _ => .error .value
  | .many cs, .many ps =>
    if cs.length ≠ ps.length then .error .value
    else .ok (.many ((cs.zip ps).map fun x => single x.1 x.2))
  | .one c, .one p => .ok (.one (single c p))
  | .one _, .many _ => .error .other

/-- Positions or forces: one row of three numbers for each atom. -/
abbrev Rows := List (Fin 3 → ℝ)

/-- A cell or a virial. -/
abbrev M3 := Fin 3 → Fin 3 → ℝ

/-- What a potential gives: energy, forces, virial and extras. -/
structure Res where
  pot : ℝ
  force : Rows
  vir : M3
  extras : String

/-- An array of zeros. -/
noncomputable def zeros (n : ℕ) : Rows := List.replicate n fun _ => 0

/-- `Gas_driver.compute_structure` (`pes/gas.py` L23-24). -/
noncomputable def gasSingle (_ : M3) (p : Rows) : Res := ⟨0, zeros p.length, fun _ _ => 0, ""⟩

/-- `Gas_driver.compute` (`pes/gas.py` L26-41): all forces have the shape of the first positions. -/
noncomputable def gasCompute : Arg M3 → Arg Rows → Except Err (Arg Res)
  | .one c, .one p => .ok (.one (gasSingle c p))
  | .one _, .many _ => .error .other
  | .many _, .one _ => .error .value
  | .many cs, .many ps =>
    if cs.length ≠ ps.length then .error .value
    else match ps with
      | [] => .error .index
      | p0 :: _ => .ok (.many ((List.range ps.length).map fun _ => ⟨0, zeros p0.length, fun _ _ => 0, ""⟩))

end Verif.GasDrv
