import Mathlib.Data.Nat.Notation
import Mathlib.Logic.Function.Basic

/-!
# Transfer of forces between force objects

Models `Forces.dump_state`, `load_state`, `transfer_forces` and `transfer_forces_manual` (`ipi/engine/forces.py` lines 1034-1157)
together with the part of the dependency graph they work on: the positions of the system, the contracted positions of each force
component (788-832), and the results `ufvx` of each replica of a component (73, 99-101), which depend on the contracted positions and
the cell.  Setting and refreshing values follows `ipi/utils/depend.py` lines 155-163, 262-267, 496-508 and 228-235.

Simplifications: one thread; a force evaluation is the function `F`; the totals, which are computed from these values, are left out
except for which components they read (1495, 1466, 1186: those with a weight other than zero).  The results are pairs of energy and
force, and virial.
-/

namespace Verif.Transfer

/-- A set of force components: contraction `C k` of the positions and results `F k b` of replica `b`, as functions of the contracted
positions and the cell. -/
structure Sys (Q Qc H P W : Type) where
  n : ℕ
  nb : ℕ → ℕ
  zeroWeight : ℕ → Bool
  C : ℕ → Q → Qc
  F : ℕ → ℕ → Qc → H → P × W

/-- State of a component: contracted positions, whether they are stale, the results and whether these are stale (`None` before the
first evaluation, 73). -/
structure Comp (Qc P W : Type) where
  cq : Qc
  cqT : Bool
  uf : ℕ → Option (P × W)
  ufT : ℕ → Bool

/-- State of a `Forces` object with the positions and the cell it is bound to. -/
structure St (Q Qc H P W : Type) where
  q : Q
  h : H
  comp : ℕ → Comp Qc P W

variable {Q Qc H P W : Type}

/-- Taint the results of a component (depend.py 157-163; those already tainted are skipped, which makes no difference for values
without further dependants). -/
def taintU (c : Comp Qc P W) : Comp Qc P W := { c with ufT := fun _ => true }

/-- The positions are set (depend.py 496-508): a component whose contracted positions are stale already is skipped (161). -/
def setQ (s : St Q Qc H P W) (q : Q) : St Q Qc H P W :=
  { s with q := q, comp := fun k => if (s.comp k).cqT then s.comp k else { taintU (s.comp k) with cqT := true } }

/-- The cell is set: it is a dependency of each result (101). -/
def setH (s : St Q Qc H P W) (h : H) : St Q Qc H P W :=
  { s with h := h, comp := fun k => taintU (s.comp k) }

/-- The contracted positions of component `k` are read: if stale they are computed and set, which taints the results
(depend.py 228-235, 204, 508). -/
def readCq (S : Sys Q Qc H P W) (k : ℕ) (s : St Q Qc H P W) : St Q Qc H P W :=
  if (s.comp k).cqT then
    { s with comp := Function.update s.comp k ({ taintU (s.comp k) with cq := S.C k s.q, cqT := false }) }
  else s

/-- The result of replica `b` of component `k` is read (143-192): if stale, positions and cell are sent to the force field. -/
def readU (S : Sys Q Qc H P W) (k b : ℕ) (s : St Q Qc H P W) : St Q Qc H P W × Option (P × W) :=
  if (s.comp k).ufT b then
    let s1 := readCq S k s
    let v := S.F k b (s1.comp k).cq s1.h
    let c : Comp Qc P W :=
      { s1.comp k with uf := Function.update (s1.comp k).uf b (some v), ufT := Function.update (s1.comp k).ufT b false }
    ({ s1 with comp := Function.update s1.comp k c }, some v)
  else (s, (s.comp k).uf b)

/-- All results of a component are read. -/
def readComp (S : Sys Q Qc H P W) (k : ℕ) : ℕ → St Q Qc H P W → St Q Qc H P W
  | 0, s => s
  | b + 1, s => (readU S k b (readComp S k b s)).1

/-- The totals are read: components of zero weight are left out (1492-1495). -/
def readTotal (S : Sys Q Qc H P W) : ℕ → St Q Qc H P W → St Q Qc H P W
  | 0, s => s
  | k + 1, s => if S.zeroWeight k then readTotal S k s else readComp S k (S.nb k) (readTotal S k s)

/-- What `dump_state` returns: the number of components and for each the positions, the number of replicas and their results. -/
structure Dump (Qc P W : Type) where
  n : ℕ
  nb : ℕ → ℕ
  cq : ℕ → Qc
  uf : ℕ → ℕ → Option (P × W)

/-- `dump_state()` (1034-1055): the positions are read, the results are copied as they are (`_ufvx._value`), stale or not.  `q` is
read in the order of the components; the state after it has all contracted positions up to date. -/
def readAllCq (S : Sys Q Qc H P W) : ℕ → St Q Qc H P W → St Q Qc H P W
  | 0, s => s
  | k + 1, s => readCq S k (readAllCq S k s)

def dump (S : Sys Q Qc H P W) (s : St Q Qc H P W) : Dump Qc P W :=
  let s1 := readAllCq S S.n s
  { n := S.n, nb := S.nb, cq := fun k => (s1.comp k).cq, uf := fun k b => (s1.comp k).uf b }

/-- Exceptions. -/
inductive Err
  | components
  | beads (k : ℕ)
  | assertion
  deriving DecidableEq

/-- Loading one component (1072-1094): contracted positions set and marked as up to date, then each result. -/
def loadComp (nb : ℕ) (c : Comp Qc P W) (q : Qc) (fb : ℕ → Option (P × W)) : Comp Qc P W :=
  { taintU c with cq := q, cqT := false, uf := fun b => if b < nb then fb b else c.uf b, ufT := fun b => if b < nb then false else true }

/-- The loop of `load_state` (1070-1094). -/
def loadFrom (S : Sys Q Qc H P W) (d : Dump Qc P W) : ℕ → St Q Qc H P W → Except Err (St Q Qc H P W)
  | 0, s => .ok s
  | k + 1, s =>
    match loadFrom S d k s with
    | .error e => .error e
    | .ok s1 =>
      if d.nb k ≠ S.nb k then .error (.beads k)
      else .ok { s1 with comp := Function.update s1.comp k (loadComp (S.nb k) (s1.comp k) (d.cq k) (d.uf k)) }

/-- `load_state(state)` (1057-1094). -/
def load (S : Sys Q Qc H P W) (d : Dump Qc P W) (s : St Q Qc H P W) : Except Err (St Q Qc H P W) :=
  if d.n ≠ S.n then .error .components else loadFrom S d S.n s

/-- `transfer_forces(refforce)` (1096-1116). -/
def transfer (S S' : Sys Q Qc H P W) (s s' : St Q Qc H P W) : Except Err (St Q Qc H P W) := load S (dump S' s') s

/-- `transfer_forces_manual` (1118-1157) with the lists of positions, and energies with forces; the virial is the argument `vir`, zeros if
it is left out.  The assertions on the shapes (1141-1144) are the equality of the numbers of replicas `mb`. -/
def manualFrom (S : Sys Q Qc H P W) (cq : ℕ → Qc) (pf : ℕ → ℕ → P) (mb : ℕ → ℕ) (vir : W) : ℕ → St Q Qc H P W → Except Err (St Q Qc H P W)
  | 0, s => .ok s
  | k + 1, s =>
    match manualFrom S cq pf mb vir k s with
    | .error e => .error e
    | .ok s1 =>
      if mb k ≠ S.nb k then .error .assertion
      else .ok { s1 with comp := Function.update s1.comp k (loadComp (S.nb k) (s1.comp k) (cq k) fun b => some (pf k b, vir)) }

def manual (S : Sys Q Qc H P W) (n : ℕ) (cq : ℕ → Qc) (pf : ℕ → ℕ → P) (mb : ℕ → ℕ) (vir : W) (s : St Q Qc H P W) :
    Except Err (St Q Qc H P W) :=
  if S.n ≠ n then .error .assertion else manualFrom S cq pf mb vir S.n s

end Verif.Transfer
