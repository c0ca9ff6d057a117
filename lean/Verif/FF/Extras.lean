import Verif.Text.Model

/-!
# Combining the extra data of force components

Model of `extra_combine` (`/repo/ipi/engine/forces.py` L1503-1554), of `extras_component`
(L1252-1258) and of the extra data of the bias (`ScaledForceComponent`, L548-553;
`/repo/ipi/engine/ensembles.py` L214-218).  Lists are objects with an address, because the total
keeps references to the lists of the components.
-/

namespace Verif.Extras

open Verif.Text

/-- The key of the raw strings. -/
def kRaw : Str := ['r', 'a', 'w']

/-- A dictionary of references to lists. -/
abbrev Dict := List (Str × Nat)

/-- The lists: for each address the strings of the beads. -/
abbrev Heap := Nat → List Str

/-- `d[e]`. -/
def Dict.look (d : Dict) (e : Str) : Option Nat :=
  match d with
  | [] => none
  | (k, a) :: d => if k = e then some a else Dict.look d e

/-- `d[e] = a`. -/
def Dict.put (d : Dict) (e : Str) (a : Nat) : Dict :=
  match d with
  | [] => [(e, a)]
  | (k, b) :: d => if k = e then (e, a) :: d else (k, b) :: Dict.put d e a

/-- One force component: whether its weight is nonzero, whether it has as many beads as the system,
and its extra data (`extra_gather`, L434-473: new lists whenever the forces are evaluated).  Data
marked as interpolated are left out: they are added up in new arrays. -/
structure Comp where
  active : Bool
  same : Bool
  extras : Dict

/-- One entry of the extra data of a component (L1527-1553). -/
def addEntry (same : Bool) (s : Heap × Dict) (x : Str × Nat) : Heap × Dict :=
  if same = false then s
  else if x.1 = kRaw then
    match s.2.look kRaw with
    | some r =>
        (fun a => if a = r then List.zipWith (· ++ ·) (s.1 r) (s.1 x.2) else s.1 a, s.2)
    | none => (s.1, s.2.put kRaw x.2)
  else (s.1, s.2.put x.1 x.2)

/-- One component (L1509-1553). -/
def addComp (s : Heap × Dict) (c : Comp) : Heap × Dict :=
  if c.active then c.extras.foldl (addEntry c.same) s else s

/-- `extra_combine`. -/
def combine (h : Heap) (cs : List Comp) : Heap × Dict := cs.foldl addComp (h, [])

/-- The components of the forces and those of the bias, which may refer to the same lists. -/
structure Sys where
  forces : List Comp
  bias : List Comp

/-- Lists and cached totals. -/
structure St where
  heap : Heap
  tot : Option Dict
  totBias : Option Dict

/-- What is read. -/
inductive Read where
  | total
  | bias
  | comp (k : Nat)

/-- What is seen: the strings behind the references. -/
def see (h : Heap) (d : Dict) : List (Str × List Str) := d.map fun x => (x.1, h x.2)

/-- One read.  A total is combined only if it is not cached (`depend_value`). -/
def read (y : Sys) (s : St) : Read → St × List (Str × List Str)
  | .total =>
      match s.tot with
      | some d => (s, see s.heap d)
      | none =>
          let r := combine s.heap y.forces
          ({ s with heap := r.1, tot := some r.2 }, see r.1 r.2)
  | .bias =>
      match s.totBias with
      | some d => (s, see s.heap d)
      | none =>
          let r := combine s.heap y.bias
          ({ s with heap := r.1, totBias := some r.2 }, see r.1 r.2)
  | .comp k => (s, see s.heap ((y.forces[k]?.map Comp.extras).getD []))

/-- A list of reads, and what the last one sees. -/
def reads (y : Sys) (s : St) (l : List Read) : St := l.foldl (fun s r => (read y s r).1) s

/-- After an evaluation of the forces: nothing has been combined. -/
def fresh (h : Heap) : St := { heap := h, tot := none, totBias := none }

end Verif.Extras
