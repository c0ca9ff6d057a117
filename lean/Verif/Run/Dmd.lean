import Mathlib.Data.Nat.Notation
import Mathlib.Logic.Function.Basic
import Mathlib.Data.Real.Basic

/-!
# Driven dynamics with a time-dependent force field

Model of `/repo/ipi/engine/smotion/dmd.py`, of the step counter and the couplings of `FFdmd`
(`/repo/ipi/engine/forcefields.py` L694-796), and of the step of the dynamics as far as it
concerns the time at which forces are computed (`/repo/ipi/engine/simulation.py` L433-470,
`/repo/ipi/engine/motion/dynamics.py` L498-548).
-/

namespace Verif.Dmd

/-! ## Couplings -/

/-- The element of `coupling` used for the pair of the atoms `i > j`, numbered from zero:
`coupling[i*(i-1)//2 : i*(i+1)//2]` against `q[:i]`, L764. -/
def slot (i j : ℕ) : ℕ := i * (i - 1) / 2 + j

/-- `int(nat * (nat - 1) / 2)`, L748. -/
def slots (nat : ℕ) : ℕ := nat * (nat - 1) / 2

/-! ## The counter -/

/-- A force field as `DMD.step` sees it: its counter if it has `dmd_update`. -/
abbrev Field := Option ℕ

/-- What python raises here. -/
inductive Err where
  | noInterface (k : String)
  | keyError
  deriving DecidableEq

/-- The body of the loops of `DMD.step` (dmd.py L47-58) for one bias component using the force
field `k`; `ffs` are the force fields of the simulation by name, which all systems share. -/
def update (dmdff : List String) (ffs : String → Option Field) (k : String) :
    Except Err (String → Option Field) :=
  if k ∉ dmdff then .ok ffs
  else
    match ffs k with
    | none => .error .keyError
    | some none => .error (.noInterface k)
    | some (some c) => .ok (Function.update ffs k (some (some (c + 1))))

/-- One system: the loop over `ensemble.bcomp`. -/
def updateSystem (dmdff : List String) (ffs : String → Option Field) (bcomp : List String) :
    Except Err (String → Option Field) :=
  bcomp.foldlM (update dmdff) ffs

/-- `DMD.step` (dmd.py L43-58) for systems with the given bias components. -/
def dmdStep (dmdff : List String) (ffs : String → Option Field) (systems : List (List String)) :
    Except Err (String → Option Field) :=
  systems.foldlM (updateSystem dmdff) ffs

/-- `n` steps. -/
def dmdSteps (dmdff : List String) (systems : List (List String)) :
    ℕ → (String → Option Field) → Except Err (String → Option Field)
  | 0, ffs => .ok ffs
  | n + 1, ffs =>
    match dmdStep dmdff ffs systems with
    | .error e => .error e
    | .ok ffs' => dmdSteps dmdff systems n ffs'

/-! ## The time of the forces -/

/-- A system with one force field: positions and momenta (one coordinate), the force computed last,
which is kept as long as the positions do not change, and the counter of the force field. -/
structure State where
  x : ℝ
  p : ℝ
  f : ℝ
  s : ℕ

/-- One step of velocity Verlet without thermostat (dynamics.py L498-548) followed by the super
motion (simulation.py L464-466).  `F x s` is the force field at the counter `s`.  The forces are
computed again when the positions have changed. -/
noncomputable def mdStep (F : ℝ → ℕ → ℝ) (dt m : ℝ) (st : State) : State :=
  let p1 := st.p + st.f * (dt / 2)
  let x1 := st.x + p1 / m * dt
  let f1 := F x1 st.s
  { x := x1, p := p1 + f1 * (dt / 2), f := f1, s := st.s + 1 }

/-- The start of a run, or of a continued run: the force is computed when it is first needed. -/
def begin (F : ℝ → ℕ → ℝ) (x p : ℝ) (s : ℕ) : State := ⟨x, p, F x s, s⟩

/-- What a checkpoint holds of it: positions, momenta and `dmd_step`
(`/repo/ipi/inputs/forcefields.py` L577-598). -/
def checkpoint (st : State) : ℝ × ℝ × ℕ := (st.x, st.p, st.s)

/-- A run continued from a checkpoint. -/
def resume (F : ℝ → ℕ → ℝ) (c : ℝ × ℝ × ℕ) : State := begin F c.1 c.2.1 c.2.2

end Verif.Dmd
