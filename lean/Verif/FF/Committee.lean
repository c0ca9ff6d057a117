import Mathlib.Algebra.Field.Basic
import Mathlib.Algebra.BigOperators.Group.List.Basic
import Mathlib.Algebra.BigOperators.Fin
/-
Model of `FFCommittee.gather` (ipi/engine/forcefields.py:1450-1655) and of `FFRotations.gather` (1790-1855).

Numbers are elements of a field `K`; the force array is a function on an index type `ι`, the virial one on `κ`. Only the numerical part
of the results is modelled; extras are a list of values per member. `np.sqrt` is not modelled (the variance is kept instead).
-/
namespace Verif.Committee
variable {K ι κ X : Type} [Field K]

/-- What one member of the committee returned: potential, force, virial, extras, and the JSON committee if its extras contain one
(`committee_pot`, `committee_force`, `committee_virial`). -/
structure Handle (K ι κ X : Type) where
  pot : K
  frc : ι → K
  vir : κ → K
  extra : X
  jpots : Option (List K) := none
  jfrcs : Option (List (ι → K)) := none
  jvirs : Option (List (κ → K)) := none

inductive Err where
  /-- "If the committee returns forces (virials), we need *all* components" (1513-1523) -/
  | components
  /-- "Cannot use weighted baseline without a force ensemble" (1551-1554) -/
  | baselineEnsemble
  /-- the name of the baseline is not one of the members: `baseline_pot` is unbound (1462-1473, 1590) -/
  | unboundBaseline
  /-- the loop variable is unbound when the list of members is empty (1526) -/
  | empty
deriving DecidableEq

/-- What the loop over members collects (1475-1509). -/
structure Acc (K ι κ : Type) where
  pots : List K := []
  frcs : List (ι → K) := []
  virs : List (κ → K) := []
  allFrc : Bool := true
  allVir : Bool := true

/-- One turn of the loop (1484-1509). -/
def collect (json : Bool) (a : Acc K ι κ) (h : Handle K ι κ X) : Acc K ι κ :=
  match json, h.jpots with
  | true, some ps =>
    let a := { a with pots := a.pots ++ ps }
    let a := match h.jfrcs with
      | some fs => { a with frcs := a.frcs ++ fs }
      | none => { a with frcs := a.frcs ++ [h.frc], allFrc := false }
    match h.jvirs with
      | some vs => { a with virs := a.virs ++ vs }
      | none => { a with virs := a.virs ++ [h.vir], allVir := false }
  | _, _ => { a with
    pots := a.pots ++ [h.pot]
    frcs := a.frcs ++ [h.frc]
    virs := a.virs ++ [h.vir] }

/-- `np.mean(_, axis=0)` of numbers. -/
def mean (l : List K) : K := l.sum / l.length
/-- `np.mean(_, axis=0)` of arrays. -/
def meanV {ι : Type} (l : List (ι → K)) : ι → K := fun i => mean (l.map (· i))

/-- Rescaling around the mean (1533-1541). -/
def rescale (alpha : K) (l : List K) : List K := l.map fun x => mean l + alpha * (x - mean l)
def rescaleV {ι : Type} (alpha : K) (l : List (ι → K)) : List (ι → K) := l.map fun x i => meanV l i + alpha * (x i - meanV l i)

/-- `np.var(_, ddof=1)`. -/
def var (l : List K) : K := (l.map fun x => (x - mean l) * (x - mean l)).sum / (l.length - 1)

/-- `uncertain_frc` (1568-1578): covariance of potential and force, scaled by `alpha ** 2`; `zip` truncates. -/
def uncertain {ι : Type} (alpha : K) (pots : List K) (frcs : List (ι → K)) : ι → K := fun i =>
  alpha ^ 2 * ((pots.zip frcs).map fun pf => (pf.1 - mean pots) * (pf.2 i - meanV frcs i)).sum / (pots.length - 1)

/-- The combined result. -/
structure Result (K ι κ : Type) where
  pot : K
  frc : ι → K
  vir : κ → K
  /-- `committee_pot` -/
  pots : List K
  /-- square of `committee_uncertainty` -/
  variance : K
  /-- `wb_mixing` -/
  mixing : Option K := none

/-- `gather` without weighted baseline (1475-1622). -/
def gatherPlain (json : Bool) (alpha : K) (hs : List (Handle K ι κ X)) : Except Err (Result K ι κ) :=
  if hs = [] then .error .empty
  else
    let a := hs.foldl (collect json) {}
    if (a.pots.length ≠ a.frcs.length ∧ a.frcs.length > 1) ∨ (a.pots.length ≠ a.virs.length ∧ a.virs.length > 1) then .error .components
    else .ok
      { pot := mean a.pots
        frc := meanV a.frcs
        vir := meanV a.virs
        pots := rescale alpha a.pots
        variance := var (rescale alpha a.pots) }

/-- `gather` with a weighted baseline (1462-1473, 1550-1615): `base` is the first member with the baseline's name, `hs` the others,
`sb2` the square of the baseline uncertainty. -/
def gatherBaseline (json : Bool) (alpha sb2 : K) (base : Option (Handle K ι κ X)) (hs : List (Handle K ι κ X)) :
    Except Err (Result K ι κ) :=
  if hs = [] then .error .empty
  else
    let a := hs.foldl (collect json) {}
    if (a.pots.length ≠ a.frcs.length ∧ a.frcs.length > 1) ∨ (a.pots.length ≠ a.virs.length ∧ a.virs.length > 1) then .error .components
    else if ¬ (a.allFrc ∧ a.allVir) then .error .baselineEnsemble
    else
      match base with
      | none => .error .unboundBaseline
      | some b =>
        let v := var (rescale alpha a.pots)
        let w := sb2 / (sb2 + v)
        .ok
          { pot := b.pot + mean a.pots * sb2 / (sb2 + v)
            frc := fun i => b.frc i + meanV a.frcs i * sb2 / (sb2 + v)
              - 2 * mean a.pots * sb2 / (sb2 + v) ^ 2 * uncertain alpha a.pots a.frcs i
            vir := fun i => b.vir i + meanV a.virs i * sb2 / (sb2 + v)
              - 2 * mean a.pots * sb2 / (sb2 + v) ^ 2 * uncertain alpha a.pots a.virs i
            pots := rescale alpha a.pots
            variance := v
            mixing := some w }

/-- The members' extras that are passed on: `xtrs.append(ff_r["result"][3])` stands after the loop (1526), so only the last member's. -/
def extrasOf (hs : List (Handle K ι κ X)) : List X :=
  match hs.getLast? with
  | none => []
  | some h => [h.extra]

/-! ### rotational averaging -/

/-- Matrix times vector and transposed matrix times vector, for one atom. -/
def mulV (R : Fin 3 → Fin 3 → K) (v : Fin 3 → K) : Fin 3 → K := fun i => R i 0 * v 0 + R i 1 * v 1 + R i 2 * v 2
def tmulV (R : Fin 3 → Fin 3 → K) (v : Fin 3 → K) : Fin 3 → K := fun i => R 0 i * v 0 + R 1 i * v 1 + R 2 i * v 2

/-- `rot_atoms.q[:] = (q.reshape(-1, 3) @ R.T).flatten()` (1760, 1772). -/
def rotate {α : Type} (R : Fin 3 → Fin 3 → K) (q : α → Fin 3 → K) : α → Fin 3 → K := fun a => mulV R (q a)
/-- `f.reshape(-1, 3) @ R` (1809). -/
def rotateBack {α : Type} (R : Fin 3 → Fin 3 → K) (f : α → Fin 3 → K) : α → Fin 3 → K := fun a => tmulV R (f a)
/-- `R.T @ vir @ R` (1810). -/
def rotateVir (R : Fin 3 → Fin 3 → K) (v : Fin 3 → Fin 3 → K) : Fin 3 → Fin 3 → K := fun i j =>
  ∑ k : Fin 3, ∑ l : Fin 3, R k i * v k l * R l j

/-- The list of evaluations (1751-1777): every rotation of the grid times the random one, followed by its inversion if requested. -/
def mulM (A B : Fin 3 → Fin 3 → K) : Fin 3 → Fin 3 → K := fun i j => A i 0 * B 0 j + A i 1 * B 1 j + A i 2 * B 2 j
def evaluations (inversion : Bool) (Rr : Fin 3 → Fin 3 → K) (grid : List ((Fin 3 → Fin 3 → K) × K)) : List ((Fin 3 → Fin 3 → K) × K) :=
  grid.flatMap fun (R, w) => if inversion then [(mulM R Rr, w), (fun i j => - mulM R Rr i j, w)] else [(mulM R Rr, w)]

/-- Quadrature (1818-1825). -/
def wmean (l : List (K × K)) : K := (l.map fun xw => xw.1 * xw.2).sum / (l.map fun xw => xw.2).sum

/-- Result of averaging: potential, force and virial, for a sub force field given as three functions of positions and cell (the cell
is rotated along, `rot_cell`, 1757, 1769). -/
def rotAverage {α : Type} (V : (α → Fin 3 → K) → (Fin 3 → Fin 3 → K) → K) (F : (α → Fin 3 → K) → (Fin 3 → Fin 3 → K) → α → Fin 3 → K)
    (W : (α → Fin 3 → K) → (Fin 3 → Fin 3 → K) → Fin 3 → Fin 3 → K) (evs : List ((Fin 3 → Fin 3 → K) × K))
    (q : α → Fin 3 → K) (h : Fin 3 → Fin 3 → K) : K × (α → Fin 3 → K) × (Fin 3 → Fin 3 → K) :=
  (wmean (evs.map fun (R, w) => (V (rotate R q) (mulM R h), w)),
   fun a i => wmean (evs.map fun (R, w) => (rotateBack R (F (rotate R q) (mulM R h)) a i, w)),
   fun i j => wmean (evs.map fun (R, w) => (rotateVir R (W (rotate R q) (mulM R h)) i j, w)))

end Verif.Committee
