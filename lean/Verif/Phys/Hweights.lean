import Verif.Depend.Frozen
import Mathlib.Analysis.Real.Sqrt
import Mathlib.Algebra.BigOperators.Fin
import Mathlib.Algebra.BigOperators.Group.Finset.Basic

/-!
# The Hamiltonian weights of an ensemble

Model of the part of `/repo/ipi/engine/ensembles.py` that turns the Hamiltonian weights into bias
forces (`bind`, L196-219), of `ScaledForceComponent` (`/repo/ipi/engine/forces.py` L519-601), of
the total bias potential (`forces.py`, `Forces.pot`) and of the use of `has_bias` in the
integrators (`/repo/ipi/engine/motion/dynamics.py` L420-440), on top of the model of the caching
layer.

Objects, for `n` force components:
* `0`: the attribute `hweights`.  It is not in the list given to `dproperties` (L285-298), so it is
  a plain attribute and assigning it taints nothing: an independent quantity nobody declares.
* `1`: the depend object `_hweights` created in `bind` (L204) with the same value, declared as a
  dependency (L210, L219) and never assigned again;
* `2 + i`: the potential of component `i`, an independent quantity here (it changes when the atoms
  move);
* `2 + n + i`: `scaling` of component `i` (L218-219);
* `2 + 2 n + i`: `pots` of the scaled component (`forces.py` L536-541, L572-577);
* `2 + 3 n`: the potential of the bias;
* `2 + 3 n + 1`: `has_bias` (L205-211).

Simplifications: one bead, no explicit bias potential in the sum; `w i` is the weight of component
`i`, times the sum of its multiple time step weights, and does not change.  Only the potential is
modelled; forces and virials are declared and computed in the same way.  The parameter `src` is the
object from which `scaling` and `has_bias` read the weights: `0` in the code.
-/

namespace Verif.Hw

open Verif.Depend

/-- Values: vectors; scalars are constant vectors. -/
abbrev Val := ℕ → ℝ

/-- Sum over the scaled components with their weights. -/
def sumProg (n : ℕ) (w : ℕ → ℝ) : List ℕ → ℝ → Prog Val
  | [], acc => .ret (fun _ => acc)
  | i :: is, acc => .read (2 + 2 * n + i) (fun v => sumProg n w is (acc + w i * v 0))

open Classical in
/-- `has_bias` (L207-209): there are explicit biases and the weights are all one. -/
noncomputable def hasBias (n nb : ℕ) (h : Val) : ℝ :=
  if 0 < nb ∧ (∑ i ∈ Finset.range n, (h i - 1) ^ 2 : ℝ) / (n : ℝ) < (1e-20 : ℝ) then 1 else 0

open Classical in
/-- The functions. -/
noncomputable def kindOf (n nb : ℕ) (w : ℕ → ℝ) (src k : ℕ) : Kind Val :=
  if k < 2 + n then .leaf
  else if k < 2 + 2 * n then
    .computed (.read src (fun h => .ret (fun _ => h (k - (2 + n)) - 1)))
  else if k < 2 + 3 * n then
    .computed (.read (2 + n + (k - (2 + 2 * n))) (fun c =>
      if c 0 ≠ 0 then .read (2 + (k - (2 + 2 * n))) (fun v => .ret (fun _ => c 0 * v 0))
      else .ret (fun _ => 0)))
  else if k = 2 + 3 * n then .computed (sumProg n w (List.range n) 0)
  else if k = 2 + 3 * n + 1 then .computed (.read src (fun h => .ret (fun _ => hasBias n nb h)))
  else .leaf

/-- The declarations. -/
def depsOf (n k : ℕ) : List ℕ :=
  if k < 2 + n then []
  else if k < 2 + 2 * n then [1]
  else if k < 2 + 3 * n then [2 + (k - (2 + 2 * n)), 2 + n + (k - (2 + 2 * n))]
  else if k = 2 + 3 * n then (List.range n).map (fun i => 2 + 2 * n + i)
  else if k = 2 + 3 * n + 1 then [1]
  else []

/-- The network. -/
noncomputable def net (n nb : ℕ) (w : ℕ → ℝ) (src : ℕ) : Net Val :=
  { size := 2 + 3 * n + 2, kind := kindOf n nb w src, deps := depsOf n }

/-- Values at the end of `bind`: the weights `h0` in the attribute and in the depend object, the
potentials `p0`. -/
def initVal (n : ℕ) (h0 p0 : ℕ → ℝ) (k : ℕ) : Val :=
  if k < 2 then h0 else if k < 2 + n then fun _ => p0 (k - 2) else fun _ => 0

/-- What can happen to the ensemble: new weights are assigned (`ensemble_swap` L52-56), the
potential of a component changes, the bias potential or `has_bias` is read. -/
inductive Act where
  | weights (h : ℕ → ℝ)
  | move (i : ℕ) (v : ℝ)
  | readBias
  | readHas

/-- The operation on the network; moves of components that do not exist are reads. -/
def Act.op (n : ℕ) : Act → Op Val
  | .weights h => .set 0 h
  | .move i v => if i < n then .set (2 + i) (fun _ => v) else .get 0
  | .readBias => .get (2 + 3 * n)
  | .readHas => .get (2 + 3 * n + 1)

/-- The state after both quantities were read once and a history of actions. -/
noncomputable def after (n nb : ℕ) (w h0 p0 : ℕ → ℝ) (acts : List Act) : State Val :=
  (run (net n nb w 0) (initState (net n nb w 0) (initVal n h0 p0) (fun _ => 0))
    (.get (2 + 3 * n) :: .get (2 + 3 * n + 1) :: acts.map (Act.op n))).2

/-- The potentials after a history. -/
def curPot (n : ℕ) (p0 : ℕ → ℝ) : List Act → ℕ → ℝ
  | [] => p0
  | .move i v :: acts => curPot n (fun j => if j = i then v else p0 j) acts
  | _ :: acts => curPot n p0 acts

/-- The weights after a history. -/
def curW (h0 : ℕ → ℝ) : List Act → ℕ → ℝ
  | [] => h0
  | .weights h :: acts => curW h acts
  | _ :: acts => curW h0 acts

end Verif.Hw
