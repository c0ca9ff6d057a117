import Mathlib.Data.Real.Basic
import Mathlib.Algebra.BigOperators.Group.List.Basic

/-!
# Results of several models for batches of structures

Model of `/repo/ipi/pes/tools.py` and of the loops of `compute_batched` in `/repo/ipi/pes/_mace.py`.  Arrays are lists of rows (along
the first axis), a row and a stored value are the flat list of their numbers; a reshape succeeds when the number of numbers is
right.  Which of several exceptions is raised first is not modelled.
-/

namespace Verif.BatchRes

/-- The shape of a property: so many numbers for each atom (tuples with the word `natoms`) or for the structure; a scalar is
`fixed 1`. -/
inductive Shape where
  | perAtom (k : ℕ)
  | fixed (k : ℕ)

/-- The number of numbers after `_expand` (`tools.py` L26-30). -/
def Shape.size : Shape → ℕ → ℕ
  | .perAtom k, n => n * k
  | .fixed k, _ => k

inductive Err where
  | unknown
  | wrongShape
  | index
  | key
  | mismatch
  | empty

/-- The properties of one structure. -/
abbrev Dict := List (String × List ℝ)

/-- `np.split(value, ptr[1:], axis=0)[:-1]` with the cumulative sums of the numbers of atoms (L83, 89-90); slices end where the rows
end. -/
def pieces : List ℕ → List (List ℝ) → List (List (List ℝ))
  | [], _ => []
  | n :: ns, rows => rows.take n :: pieces ns (rows.drop n)

/-- `StructureResults.store` (L32-50). -/
def put (sh : Shape) (n : ℕ) (flat : List ℝ) : Except Err (List ℝ) :=
  if flat.length = sh.size n then .ok flat else .error .wrongShape

/-- The values of one property for all structures, L86-93. -/
def column (sh : Shape) (natoms : List ℕ) (rows : List (List ℝ)) : Except Err (List (List ℝ)) :=
  match sh with
  | .perAtom _ => (natoms.zip (pieces natoms rows)).mapM fun x => put sh x.1 x.2.flatten
  | .fixed _ => natoms.zipIdx.mapM fun x => match rows[x.2]? with
    | none => .error .index
    | some r => put sh x.1 r

/-- `ModelResults.store` (L79-95): what is appended to the results. -/
def store (shapes : String → Option Shape) (natoms : List ℕ) : List (String × List (List ℝ)) → Except Err (List Dict)
  | [] => .ok (natoms.map fun _ => [])
  | (k, rows) :: rest =>
    match shapes k with
    | none => .error .unknown
    | some sh =>
      match column sh natoms rows with
      | .error e => .error e
      | .ok col =>
        match store shapes natoms rest with
        | .error e => .error e
        | .ok ds => .ok (List.zipWith (fun x d => (k, x) :: d) col ds)

/-- `StructureResults.__add__` (L52-55): the properties of the first, with a `KeyError` when the second lacks one. -/
def addD (a b : Dict) : Except Err Dict :=
  a.mapM fun x => match b.lookup x.1 with
    | none => .error .key
    | some y => .ok (x.1, List.zipWith (· + ·) x.2 y)

/-- The mean for one structure, L128-138: zeros for the properties of the first model, the sum over models, the division. -/
noncomputable def meanS (n : ℕ) (first : Dict) (ds : List Dict) : Except Err Dict :=
  match ds.foldlM addD (first.map fun x => (x.1, x.2.map fun _ => 0)) with
  | .error e => .error e
  | .ok d => .ok (d.map fun x => (x.1, x.2.map fun y => y / n))

/-- `ModelResults.mean` (L105-140). -/
noncomputable def mean : List (List (ℕ × Dict)) → Except Err (List (ℕ × Dict))
  | [] => .error .empty
  | m0 :: ms =>
    if ∃ m ∈ ms, m.map Prod.fst ≠ m0.map Prod.fst then .error .mismatch
    else m0.zipIdx.mapM fun x =>
      match meanS (m0 :: ms).length x.1.2 ((m0 :: ms).map fun m => (m[x.2]?.map Prod.snd).getD []) with
      | .error e => .error e
      | .ok d => .ok (x.1.1, d)

/-- What one model gives for all batches, `_mace.py` L308-336: the results of the batches one after the other, with the numbers of atoms. -/
def perModel {S : Type} (shapes : String → Option Shape) (nat : S → ℕ) (model : List S → List (String × List (List ℝ)))
    (batches : List (List S)) : Except Err (List (ℕ × Dict)) :=
  match batches.mapM fun b => (store shapes (b.map nat) (model b)).map fun ds => (b.map nat).zip ds with
  | .error e => .error e
  | .ok l => .ok l.flatten

/-- `compute_batched` (L293-339). -/
noncomputable def compute {S : Type} (shapes : String → Option Shape) (nat : S → ℕ) (models : List (List S → List (String × List (List ℝ))))
    (batches : List (List S)) : Except Err (List (ℕ × Dict)) :=
  match models.mapM fun m => perModel shapes nat m batches with
  | .error e => .error e
  | .ok l => mean l

end Verif.BatchRes
