import Mathlib.Data.Nat.Notation
import Mathlib.Data.Real.Basic
import Mathlib.Analysis.SpecialFunctions.Trigonometric.Basic

/-!
# Lists of motions

Model of `/repo/ipi/engine/motion/multi.py`, and of the time step of the normal modes object which the
members share (`/repo/ipi/engine/normalmodes.py` L310-311, `/repo/ipi/engine/motion/dynamics.py`
L256-257 and L336, `/repo/ipi/engine/system.py` L93-104).
-/

namespace Verif.Multi

/-- A member of the list.  `qdt` is the time step of the position propagation of a `Dynamics`
(`get_qdt`, dynamics.py L256-257) and `none` for any other motion; `step nmdt` is the step with the
normal modes object set to the time step `nmdt`; `finished` and `exit_status`, `exit_message` are
looked up in the state after the step. -/
structure Member (S : Type) where
  dt : ℝ
  qdt : Option ℝ
  fixed : List ℕ
  fixcom : Bool
  step : ℝ → S → S
  finished : S → Option (Option String × String)

variable {S : Type}

/-- `get_totdt`, multi.py L41-45. -/
noncomputable def totdt (l : List (Member S)) : ℝ := l.foldl (fun dt m => dt + m.dt) 0

/-- `fixatoms_dof`, multi.py L32-35, as the list of the elements of the intersection.  The
constructor fails for an empty list, `mlist[0]`. -/
def fixatoms (l : List (Member S)) : Except String (List ℕ) :=
  match l with
  | [] => .error "IndexError"
  | m :: _ => .ok (l.foldl (fun acc x => acc.filter fun i => i ∈ x.fixed) m.fixed.eraseDups)

/-- `fixcom`, multi.py L37-39. -/
def fixcom (l : List (Member S)) : Bool := l.foldl (fun b m => b && m.fixcom) true

/-- The time step of the normal modes object after the binding: `nm.bind` connects it with the time
step of the whole motion (system.py L93, normalmodes.py L311), then the members are bound in
turn (multi.py L74-75) and each `Dynamics` connects it with its own (dynamics.py L336). -/
noncomputable def nmdt (l : List (Member S)) : ℝ :=
  l.foldl (fun t m => m.qdt.getD t) (totdt l)

/-- How a step ended: `finish` was called with a status and a message, or not. -/
abbrev Exit := Option (String × String)

/-- `m.exit_status or "success"`, multi.py L54. -/
def exitStatus : Option String → String
  | some x => if x = "" then "success" else x
  | none => "success"

/-- `step`, multi.py L47-56, with the time step `t` of the normal modes. -/
def stepWith (t : ℝ) : List (Member S) → S → S × Exit
  | [], s => (s, none)
  | m :: l, s =>
    let s' := m.step t s
    match m.finished s' with
    | some (status, msg) => (s', some (exitStatus status, msg))
    | none => stepWith t l s'

/-- `step` of the list. -/
noncomputable def step (l : List (Member S)) (s : S) : S × Exit := stepWith (nmdt l) l s

/-- One internal mode of a free ring polymer with frequency `ω` under a `Dynamics` without forces
and thermostat: in each step the mode is propagated `n` times over the time step of the normal
modes object (`free_qstep`, normalmodes.py L797-840; `n = 2 inmts`). -/
noncomputable def freeDyn (ω : ℝ) (dt : ℝ) (n : ℕ) : Member (ℝ × ℝ) :=
  { dt := dt
    qdt := some (dt / n)
    fixed := []
    fixcom := true
    step := fun t s => (Real.cos (ω * (n * t)) * s.1 + Real.sin (ω * (n * t)) / ω * s.2,
      -(ω * Real.sin (ω * (n * t)) * s.1) + Real.cos (ω * (n * t)) * s.2)
    finished := fun _ => none }

end Verif.Multi
