import Mathlib.Algebra.Module.Basic
import Verif.Util

/-!
# Splitting the force over time step levels

Model of `MTSForces` and of the routines of `Forces` that put the force components
together (`/repo/ipi/engine/forces.py` L604-735 and L1447-1570).

Simplifications: numbers are elements of a field, arrays are elements of a module over it
(so that entries are added exactly), and every component already carries its force and its
virial expanded to the full number of beads, i.e. the value of `mrpc[k].b2tob1(...)`.
-/

namespace Verif.MtsForces

/-- The exceptions that show up in these routines. -/
inductive Err where
  /-- `mts_weights[level]` of an empty array -/
  | indexError
  /-- "The mts_weights of all the force components are not the same." -/
  | valueError
  deriving DecidableEq, Repr

/-- One force component: its weight, its weights at the levels, its force and its virials
(both already expanded), `/repo/ipi/engine/forces.py` L319-420. -/
structure Comp (K V W : Type) where
  weight : K
  mts : List K
  f : V
  virs : W

section
variable {K V W : Type} [Field K] [DecidableEq K] [AddCommGroup V] [Module K V]
  [AddCommGroup W] [Module K W]

/-- `len(mts_weights) > level and mts_weights[level] != 0 and weight != 0`, L664-666 and
L718-722. -/
def active (c : Comp K V W) (level : Nat) : Bool :=
  match c.mts[level]? with
  | some m => decide (m ≠ 0) && decide (c.weight ≠ 0)
  | none => false

/-- The test of `queue_mts` and of `get_forces_mts` (L653-656, L673-676): a component
without level weights is used at the outer level, without looking at its weight. -/
def used (c : Comp K V W) (level : Nat) : Bool :=
  (c.mts.isEmpty && decide (level = 0)) || active c level

/-- The test under which `MTSForces.__init__` makes the level depend on a component
(L633-641); it does not look at the weight. -/
def watched (c : Comp K V W) (level : Nat) : Bool :=
  (c.mts.isEmpty && decide (level = 0)) ||
    (match c.mts[level]? with
     | some m => decide (m ≠ 0)
     | none => false)

/-- `queue_mts` (L645-658): the components that are sent out for evaluation. -/
def queued (cs : List (Comp K V W)) (level : Nat) : List (Comp K V W) :=
  cs.filter (fun c => used c level)

/-- `get_forces_mts` (L660-685): the loop over the components. -/
def levelForceFrom (level : Nat) : V → List (Comp K V W) → Except Err V
  | fk, [] => .ok fk
  | fk, c :: cs =>
      if used c level then
        match c.mts[level]? with
        | some m => levelForceFrom level (fk + (c.weight * m) • c.f) cs
        | none => .error .indexError
      else levelForceFrom level fk cs

/-- `get_forces_mts` (L660-685). -/
def levelForce (cs : List (Comp K V W)) (level : Nat) : Except Err V :=
  levelForceFrom level 0 cs

/-- `get_virs_mts` (L691-710): the loop over the components. -/
def levelVirFrom (level : Nat) : W → List (Comp K V W) → W
  | rp, [] => rp
  | rp, c :: cs =>
      if active c level then levelVirFrom level (rp + (c.weight * c.mts.getD level 0) • c.virs) cs
      else levelVirFrom level rp cs

/-- `get_virs_mts` (L691-710). -/
def levelVir (cs : List (Comp K V W)) (level : Nat) : W := levelVirFrom level 0 cs

/-- `f_combine` (L1458-1473): the loop over the components. -/
def totalForceFrom : V → List (Comp K V W) → V
  | rf, [] => rf
  | rf, c :: cs =>
      if c.weight ≠ 0 then totalForceFrom (rf + (c.weight * c.mts.sum) • c.f) cs
      else totalForceFrom rf cs

/-- `f_combine` (L1458-1473). -/
def totalForce (cs : List (Comp K V W)) : V := totalForceFrom 0 cs

/-- `vir_combine` (L1556-1571): the loop over the components. -/
def totalVirFrom : W → List (Comp K V W) → W
  | rp, [] => rp
  | rp, c :: cs =>
      if c.weight ≠ 0 then totalVirFrom (rp + (c.weight * c.mts.sum) • c.virs) cs
      else totalVirFrom rp cs

/-- `vir_combine` (L1556-1571). -/
def totalVir (cs : List (Comp K V W)) : W := totalVirFrom 0 cs

/-- `get_nmtslevels` (L1447-1456): all the components must have the same number of level
weights as the first one; without components `mforces[0]` fails. -/
def nmtslevels : List (Comp K V W) → Except Err Nat
  | [] => .error .indexError
  | c :: cs =>
      if (c :: cs).all (fun x => decide (x.mts.length = c.mts.length)) then .ok c.mts.length
      else .error .valueError

/-- What the integrator applies over a whole step when it goes through the levels
`0 … n-1` (`dynamics.py` L449-479, each level for the full time step, property C39): the sum
of the level forces. -/
def sumLevels (g : Nat → Except Err V) : Nat → Except Err V
  | 0 => .ok 0
  | n + 1 =>
      match sumLevels g n, g n with
      | .ok a, .ok b => .ok (a + b)
      | .error e, _ => .error e
      | .ok _, .error e => .error e

end

end Verif.MtsForces
