import Mathlib.Algebra.BigOperators.Group.List.Basic
import Mathlib.Analysis.Real.Sqrt
import Verif.Phys.Contract

/-!
# Suzuki-Chin forces

Model of the fourth order potential and forces of `/repo/ipi/engine/forces.py` L1260-1445 and
L1458-1630 and of the momentum updates of `SCIntegrator` (`/repo/ipi/engine/motion/dynamics.py`
L675-745), with exact real numbers.  Positions and forces are arrays with one row per replica and
three columns per atom.  The fourth order virials and the change of the cell of the auxiliary
system are left out.
-/

namespace Verif.SC

open Finset Verif.Nm Verif.Contract

/-- How a run can end here: `exit()` for an odd number of replicas and for forward differences on a
contracted path, an unbound local variable, and arrays of shapes that do not fit. -/
inductive Err
  | oddBeads
  | forwardContraction
  | unboundLocal
  | shape
deriving DecidableEq

/-- A force component, `ForceComponent.__init__` L319-380: its weight, its weights at the levels of
the multiple time stepping, the number of replicas it is evaluated on (zero for all), the parameter
of the finite differences, and the potential and the force its forcefield returns for a replica. -/
structure Comp (m : ℕ) where
  weight : ℝ
  mts : List ℝ
  nb : ℕ
  eps : ℝ
  pot : (Fin m → ℝ) → ℝ
  force : (Fin m → ℝ) → (Fin m → ℝ)

variable {P m : ℕ}

/-- The number of replicas of a component in a system with `B` replicas, L796-800. -/
def Comp.beads (c : Comp m) (B : ℕ) : ℕ := if c.nb = 0 ∨ B < c.nb then B else c.nb

/-- The expanded force of a component, `mrpc[k].b2tob1(mforces[k].f)` with the positions contracted
as at L789-791 and L812-820. -/
noncomputable def Comp.expForce {B : ℕ} (op : List ℕ) (c : Comp m) (q : Arr B m) : Arr B m :=
  b2tob1 B op fun a => c.force (b1tob2 (c.beads B) op q a)

/-- The expanded potentials of a component, `mrpc[k].b2tob1(mforces[k].pots)`. -/
noncomputable def Comp.expPot {B : ℕ} (op : List ℕ) (c : Comp m) (q : Arr B m) : Fin B → ℝ :=
  b2tob1One B fun a => c.pot (b1tob2 (c.beads B) op q a)

/-- `f_combine`, L1458-1473. -/
noncomputable def f (op : List ℕ) (cs : List (Comp m)) (q : Arr P m) : Arr P m := fun b i =>
  (cs.map fun c => if c.weight ≠ 0 then c.weight * c.mts.sum * c.expForce op q b i else 0).sum

/-- `pot_combine`, L1485-1500. -/
noncomputable def pots (op : List ℕ) (cs : List (Comp m)) (q : Arr P m) : Fin P → ℝ := fun b =>
  (cs.map fun c => if c.weight ≠ 0 then c.weight * c.mts.sum * c.expPot op q b else 0).sum

/-- `get_coeffsc_part_1`, L1616-1622. -/
noncomputable def coeff1 (b : Fin P) : ℝ := if (b : ℕ) % 2 = 0 then -1 / 3 else 1 / 3

/-- `get_coeffsc_part_2`, L1624-1630. -/
noncomputable def coeff2 (alpha omegan2 : ℝ) (b : Fin P) : ℝ :=
  if (b : ℕ) % 2 = 0 then alpha / omegan2 / 9 else (1 - alpha) / omegan2 / 9

/-- `get_potssc`, L1573-1584. -/
noncomputable def potssc (op : List ℕ) (alpha omegan2 : ℝ) (m3 : Fin m → ℝ) (cs : List (Comp m))
    (q : Arr P m) : Except Err (Fin P → ℝ) :=
  if P % 2 ≠ 0 then .error .oddBeads
  else .ok fun b => coeff1 b * pots op cs q b
    + coeff2 alpha omegan2 b * ∑ i, f op cs q b i / m3 i * f op cs q b i

/-- `potsc`, L900-902. -/
noncomputable def potsc (op : List ℕ) (alpha omegan2 : ℝ) (m3 : Fin m → ℝ) (cs : List (Comp m))
    (q : Arr P m) : Except Err ℝ := do
  let p ← potssc op alpha omegan2 m3 cs q
  return ∑ b, p b

/-- The size of the displacements, L1269-1282; `natoms` is a third of the number of columns. -/
noncomputable def delta (m3 : Fin m → ℝ) (fbase : Arr P m) (eps : ℝ) : ℝ :=
  let foverm := √((∑ b, ∑ i, fbase b i / m3 i * fbase b i / m3 i) / ((P : ℝ) * ((m : ℝ) / 3)))
  if 1e-20 < |foverm| then |eps| / foverm else |eps|

/-- `q[1::2]` -/
def odd (q : Arr P m) : Arr (P / 2) m := fun k => q ⟨2 * k + 1, by omega⟩

/-- A row of an array; only used for rows that exist. -/
def row {B : ℕ} (q : Arr B m) (k : ℕ) : Fin m → ℝ := if h : k < B then q ⟨k, h⟩ else 0

/-- `f_4th_order[1::2] = x` for an array that was zero, L1326 and L1396-1403. -/
def setOdd (x : Arr (P / 2) m) : Arr P m := fun b => if (b : ℕ) % 2 = 1 then row x (b / 2) else 0

/-- The displaced path of the centred differences for `alpha == 0`, L1381-1386: the odd replicas
displaced forward and then the odd replicas displaced backward. -/
def plusMinus (q dq : Arr P m) : Arr P m := fun a =>
  if (a : ℕ) < P / 2 then row (odd q + odd dq) a else row (odd q - odd dq) (a - P / 2)

/-- `forcesvirs_4th_order`, L1260-1445, for one component.  `aux` is the number of replicas of the
auxiliary system `dforces` (`none` before it is made); it is made once and kept.  Arrays with wrong
shapes are refused by numpy. -/
noncomputable def f4 (op : List ℕ) (alpha : ℝ) (m3 : Fin m → ℝ) (cs : List (Comp m)) (q : Arr P m)
    (aux : Option ℕ) (c : Comp m) : Except Err (Arr P m × Option ℕ) :=
  if P % 2 ≠ 0 then .error .oddBeads
  else
    let dl := delta m3 (f op cs q) c.eps
    let dq : Arr P m := fun b i => dl * f op cs q b i / m3 i
    let fbase : Arr P m := c.expForce op q
    if 0 < c.eps then
      if c.beads P ≠ P then .error .forwardContraction
      else if alpha = 0 then
        if aux.getD (P / 2) ≠ P / 2 then .error .shape
        else
          let fminus : Arr (P / 2) m := c.expForce op (odd q - odd dq)
          .ok (setOdd fun k i => 2 * (fminus k i - odd fbase k i) / dl, some (P / 2))
      else if aux.getD P ≠ P then .error .shape
      else
        let fplus : Arr P m := c.expForce op (q + dq)
        .ok (fun b i => 2 * (fbase b i - fplus b i) / dl, some P)
    else if c.eps < 0 then
      if aux.getD P ≠ P then .error .shape
      else if alpha = 0 then
        let fpm : Arr P m := c.expForce op (plusMinus q dq)
        .ok (setOdd fun k i => 2 * (row fpm (P / 2 + k) i - row fpm k i) / 2 / dl, some P)
      else
        let fplus : Arr P m := c.expForce op (q + dq)
        let fminus : Arr P m := c.expForce op (q - dq)
        .ok (fun b i => 2 * (fminus b i - fplus b i) / 2 / dl, some P)
    else .error .unboundLocal

/-- The loop of `fvir_4th_order_combine`, L1474-1483. -/
noncomputable def f4Loop (op : List ℕ) (alpha : ℝ) (m3 : Fin m → ℝ) (cs : List (Comp m))
    (q : Arr P m) : Option ℕ → Arr P m → List (Comp m) → Except Err (Arr P m × Option ℕ)
  | aux, rf, [] => .ok (rf, aux)
  | aux, rf, c :: rest =>
      if c.weight ≠ 0 ∧ c.mts.sum ≠ 0 then
        match f4 op alpha m3 cs q aux c with
        | .error e => .error e
        | .ok (fv, aux') => f4Loop op alpha m3 cs q aux'
            (fun b i => rf b i + c.weight * c.mts.sum * fv b i) rest
      else f4Loop op alpha m3 cs q aux rf rest

/-- `fvir_4th_order_combine`, L1474-1483, the forces. -/
noncomputable def f4total (op : List ℕ) (alpha : ℝ) (m3 : Fin m → ℝ) (cs : List (Comp m))
    (aux : Option ℕ) (q : Arr P m) : Except Err (Arr P m × Option ℕ) :=
  f4Loop op alpha m3 cs q aux 0 cs

/-- `get_fsc` with `get_fsc_part_1` and `get_fsc_part_2`, L1586-1594 and L1608-1610: the difference
between the Suzuki-Chin and the ordinary force. -/
noncomputable def fsc (op : List ℕ) (alpha omegan2 : ℝ) (m3 : Fin m → ℝ) (cs : List (Comp m))
    (aux : Option ℕ) (q : Arr P m) : Except Err (Arr P m × Option ℕ) := do
  let (f4, aux') ← f4total op alpha m3 cs aux q
  return (fun b i => coeff1 b * f op cs q b i + coeff2 alpha omegan2 b * f4 b i, aux')

end Verif.SC
