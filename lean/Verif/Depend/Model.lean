/-
Model of the lazy-evaluation layer `ipi/utils/depend.py`.

Objects are numbered `0 .. size-1`.  `deps i` is the list of dependencies declared for object `i` with
`dependencies=[...]` or `add_dependency` (lines 107-108, 147-153).  Every function reads other objects through their
getter, and declarations and reads go from lower to higher numbers (a topological numbering of the acyclic graph the
docstring of `taint`, line 156, assumes).
-/
namespace Verif.Depend

/-- The body of an evaluation function (`_func`, depend.py:72-73): it either returns a value or reads object `i`
through the getter (`__get__`, depend.py:257-260 and 464-467) and goes on with the value obtained.  Which objects are
read may depend on the values read before.  Simplification: functions have no side effects and do not raise. -/
inductive Prog (V : Type) where
  | ret (v : V)
  | read (i : Nat) (k : V → Prog V)

/-- What kind of depend object a number stands for.
* `leaf`: `_func is None` and no synchronizer: an independent quantity.
* `computed p`: `_func` is a callable.
* `peer g conv`: member of the synchronizer number `g` (depend.py:53-64); `conv m v` is `_func[m]()`, the value of this
  peer computed from the value `v` of peer `m` (depend.py:195-197; normalmodes.py:198-213). -/
inductive Kind (V : Type) where
  | leaf
  | computed (p : Prog V)
  | peer (g : Nat) (conv : Nat → V → V)

/-- A dependency network: number of objects, kind and declared dependencies of each. -/
structure Net (V : Type) where
  size : Nat
  kind : Nat → Kind V
  deps : Nat → List Nat

/-- Run-time state: `_value` and `_tainted[0]` of each object, `manual` of each synchronizer (depend.py:64), and a
ghost counter of the evaluations of each object's function (not in the code; used to state laziness). -/
structure State (V : Type) where
  val : Nat → V
  tainted : Nat → Bool
  manual : Nat → Nat
  evals : Nat → Nat

variable {V : Type}

/-- Point update of a function. -/
def upd {α : Type} (f : Nat → α) (i : Nat) (a : α) : Nat → α := fun j => if j = i then a else f j

def State.setVal (s : State V) (i : Nat) (v : V) : State V := { s with val := upd s.val i v }
def State.setTaint (s : State V) (i : Nat) (b : Bool) : State V := { s with tainted := upd s.tainted i b }
def State.setManual (s : State V) (g i : Nat) : State V := { s with manual := upd s.manual g i }
def State.tick (s : State V) (i : Nat) : State V := { s with evals := upd s.evals i (s.evals i + 1) }

/-- `_dependants` of object `i`: the objects that declared `i` (depend.py:150-151).  Simplification: visited in
numerical order rather than in order of declaration, and all weak references alive. -/
def Net.dependants (net : Net V) (i : Nat) : List Nat :=
  (List.range net.size).filter (fun j => decide (i < j) && decide (i ∈ net.deps j))

theorem Net.mem_dependants {net : Net V} {i j : Nat} :
    j ∈ net.dependants i ↔ j < net.size ∧ i < j ∧ i ∈ net.deps j := by
  simp [Net.dependants]

/-- `taint(taintme=True)` (depend.py:155-163): taint the dependants that are not tainted yet, recursively, then self. -/
def taint (net : Net V) (i : Nat) (s : State V) : State V :=
  ((net.dependants i).attach.foldl
    (fun s j => if s.tainted j.1 then s else taint net j.1 s) s).setTaint i true
termination_by net.size - i
decreasing_by
  have := Net.mem_dependants.1 j.2
  omega

/-- The loop of `taint` over the dependants only (depend.py:157-162; the same loop is inlined in `_taint_synchro`,
depend.py:179-184). -/
def fire (net : Net V) (i : Nat) (s : State V) : State V :=
  (net.dependants i).foldl (fun s j => if s.tainted j then s else taint net j s) s

/-- `taint(taintme=b)` (depend.py:155-163). -/
def taintMe (net : Net V) (i : Nat) (b : Bool) (s : State V) : State V := (fire net i s).setTaint i b

/-- Members of synchronizer `g` (`synced.values()`, depend.py:63, 175). -/
def Net.peers (net : Net V) (g : Nat) : List Nat :=
  (List.range net.size).filter (fun j => match net.kind j with | .peer g' _ => g' == g | _ => false)

/-- The loop of `_taint_synchro` over the other peers (depend.py:175-184). -/
def taintPeers (net : Net V) (i : Nat) (ps : List Nat) (s : State V) : State V :=
  ps.foldl (fun s q => if q = i ∨ s.tainted q = true then s else fire net q (s.setTaint q true)) s

/-- `_taint_synchro` (depend.py:165-184). -/
def taintSynchro (net : Net V) (g i : Nat) (s : State V) : State V :=
  taintPeers net i (net.peers g) (s.setManual g i)

/-- Runs an evaluation function, reading objects with `getter`. -/
def Prog.run {σ : Type} (getter : Nat → σ → V × σ) : Prog V → σ → V × σ
  | .ret v, s => (v, s)
  | .read i k, s => let r := getter i s; (k r.1).run getter r.2

/-- `set(value, manual=False)` followed by the second `taint(False)` of `_refresh` (depend.py:234-235, 262-267,
504-508). -/
def store (net : Net V) (i : Nat) (v : V) (s : State V) : State V :=
  taintMe net i false (taintMe net i false (s.setVal i v))

/-- The getter of an object (`__get__`/`get`/dproperties getter, depend.py:257-260, 510-513, 718-722) with `_refresh`
(228-235) and `update_auto` (189-207).  A read of an object with a number not below the reader's would not terminate in
python (cyclic dependency); it is excluded by well-formedness of the net. -/
def get (net : Net V) (i : Nat) (s : State V) : V × State V :=
  if s.tainted i then
    match net.kind i with
    | .leaf => let s' := taintMe net i false s; (s'.val i, s')
    | .computed p =>
      let r := p.run (fun j s => if _h : j < i then get net j s else (s.val j, s)) s
      let s' := store net i r.1 (r.2.tick i)
      (s'.val i, s')
    | .peer g conv =>
      let m := s.manual g
      if m = i then let s' := taintMe net i false s; (s'.val i, s')
      else
        -- `_func[manual]()` reads the manual peer through its getter
        let s1 := if s.tainted m then taintMe net m false s else s
        let s' := store net i (conv m (s1.val m)) (s1.tick i)
        (s'.val i, s')
  else (s.val i, s)
termination_by i

/-- Result of an assignment. -/
inductive SetResult where
  | ok
  | nameError
deriving DecidableEq, Repr

/-- `set(value, manual=True)` (depend.py:262-267, 496-508) with `update_man` (209-220).  Note that the value is
written before `update_man` raises. -/
def set (net : Net V) (i : Nat) (v : V) (s : State V) : SetResult × State V :=
  let s1 := s.setVal i v
  match net.kind i with
  | .leaf => (.ok, taintMe net i false s1)
  | .computed _ => (.nameError, s1)
  | .peer g _ => (.ok, taintMe net i false (taintSynchro net g i s1))

/-- Creation of a view with `reshape`/`flatten` of a held object (depend.py:438-458): the view shares the flag, and the
base-class constructor (depend.py:118-122) clears a set flag because the view has no function. -/
def reshape (net : Net V) (i : Nat) (s : State V) : State V :=
  if s.tainted i then taintMe net i false s else s

/-- Operations of a user of the layer. -/
inductive Op (V : Type) where
  | set (i : Nat) (v : V)
  | get (i : Nat)

/-- Observable result of an operation. -/
inductive Out (V : Type) where
  | setRes (r : SetResult)
  | got (v : V)
deriving DecidableEq

def step (net : Net V) (s : State V) : Op V → Out V × State V
  | .set i v => let r := set net i v s; (.setRes r.1, r.2)
  | .get i => let r := get net i s; (.got r.1, r.2)

def run (net : Net V) (s : State V) : List (Op V) → List (Out V) × State V
  | [] => ([], s)
  | op :: ops =>
    let r := step net s op
    let r' := run net r.2 ops
    (r.1 :: r'.1, r'.2)

/-- State after construction (depend.py:116-122, and `update_man` at the end of `bind` in normalmodes.py:229-230):
independent quantities are clean, computed ones are tainted, and of each synchronizer only the manual peer is clean. -/
def initState (net : Net V) (v0 : Nat → V) (man0 : Nat → Nat) : State V where
  val := v0
  tainted := fun i => match net.kind i with
    | .leaf => false
    | .computed _ => true
    | .peer g _ => decide (man0 g ≠ i)
  manual := man0
  evals := fun _ => 0

end Verif.Depend
