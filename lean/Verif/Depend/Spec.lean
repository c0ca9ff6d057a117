import Verif.Depend.Model
/-
Specification of the dependency layer: no caching at all.  The state is the value given to each independent quantity
and, for each group of synchronised representations, which one was assigned last and to what.
-/
namespace Verif.Depend

variable {V : Type}

/-- Specification state. -/
structure Spec (V : Type) where
  /-- last value assigned to an independent quantity or to a representation -/
  given : Nat → V
  /-- representation of each group assigned last -/
  last : Nat → Nat

/-- Evaluates a function body given the values of everything it reads. -/
def Prog.eval (f : Nat → V) : Prog V → V
  | .ret v => v
  | .read i k => (k (f i)).eval f

/-- From-scratch value of a quantity: independent quantities have the value given, a representation is converted from
the one assigned last, a computed quantity is its function applied to from-scratch values. -/
def Spec.value (net : Net V) (S : Spec V) (i : Nat) : V :=
  match net.kind i with
  | .leaf => S.given i
  | .computed p => p.eval (fun j => if _h : j < i then S.value net j else S.given j)
  | .peer g conv => if S.last g = i then S.given i else conv (S.last g) (S.given (S.last g))
termination_by i

/-- Assignments change what was given; assignments to computed quantities are rejected. -/
def Spec.step (net : Net V) (S : Spec V) : Op V → Out V × Spec V
  | .set i v => match net.kind i with
    | .leaf => (.setRes .ok, { S with given := upd S.given i v })
    | .computed _ => (.setRes .nameError, S)
    | .peer g _ => (.setRes .ok, { given := upd S.given i v, last := upd S.last g i })
  | .get i => (.got (S.value net i), S)

def Spec.run (net : Net V) (S : Spec V) : List (Op V) → List (Out V) × Spec V
  | [] => ([], S)
  | op :: ops =>
    let r := S.step net op
    let r' := r.2.run net ops
    (r.1 :: r'.1, r'.2)

/-- Objects a function body reads on some execution. -/
inductive Prog.MayRead : Prog V → Nat → Prop
  | here (i k) : Prog.MayRead (.read i k) i
  | there (i k v j) : Prog.MayRead (k v) j → Prog.MayRead (.read i k) j

/-- Objects a function body reads on every execution. -/
inductive Prog.MustRead : Prog V → Nat → Prop
  | here (i k) : Prog.MustRead (.read i k) i
  | there (i k j) : (∀ v, Prog.MustRead (k v) j) → Prog.MustRead (.read i k) j

/-- Shape of a network: everything goes from lower to higher numbers, independent quantities and representations declare
no dependencies. -/
structure Net.WF (net : Net V) : Prop where
  deps_lt : ∀ i, i < net.size → ∀ d ∈ net.deps i, d < i
  base_deps : ∀ i, i < net.size → (∀ p, net.kind i ≠ .computed p) → net.deps i = []
  reads_lt : ∀ i, i < net.size → ∀ p, net.kind i = .computed p → ∀ j, p.MayRead j → j < i

/-- Declarations are exact: each function reads, on every execution, everything it declares, and nothing else. -/
def Net.Exact (net : Net V) : Prop :=
  ∀ i, i < net.size → ∀ p, net.kind i = .computed p →
    (∀ j, p.MayRead j → j ∈ net.deps i) ∧ (∀ d ∈ net.deps i, p.MustRead d)

/-- `x` is a declared dependency, direct or indirect, of `j`. -/
inductive Net.Reach (net : Net V) (x : Nat) : Nat → Prop
  | direct (j) : j < net.size → x ∈ net.deps j → net.Reach x j
  | step (k j) : net.Reach x k → j < net.size → k ∈ net.deps j → net.Reach x j

/-- `d` is certainly read, directly or indirectly, when `i` is evaluated. -/
inductive Net.Forces (net : Net V) : Nat → Nat → Prop
  | direct (i p d) : net.kind i = .computed p → p.MustRead d → net.Forces i d
  | step (i p r d) : net.kind i = .computed p → p.MustRead r → net.Forces r d → net.Forces i d

/-- Weaker than `Exact`, and enough: a declared dependency that is not an independent quantity is certainly read, directly
or indirectly; and whatever base quantity a read object is declared to descend from, the reader is declared to descend
from it too. -/
structure Net.Covered (net : Net V) : Prop where
  forced : ∀ i, i < net.size → ∀ d ∈ net.deps i, net.kind d ≠ .leaf → net.Forces i d
  traced : ∀ i, i < net.size → ∀ p, net.kind i = .computed p → ∀ r, p.MayRead r →
    ∀ b, (∀ q, net.kind b ≠ .computed q) → (b = r ∨ net.Reach b r) → net.Reach b i

end Verif.Depend
