import Verif.Phys.Contract

/-!
# The reported contributions of single force components

Model of `Forces.pots_component`, `forces_component` and `virs_component`
(`/repo/ipi/engine/forces.py` L1205-1252), of `pot_combine`, `f_combine` and `vir_combine`
(L1458-1472, L1487-1501, L1556-1571), and of the outputs `potential`, `pot_component`,
`pot_component_raw`, `vir_component`, `vir_component_raw`
(`/repo/ipi/engine/properties.py` L382-453, L1578-1583), `forces_component` and
`forces_component_raw` (L3083-3113), with exact real numbers.  The results of the forcefields
are given; when they are computed is not modelled.
-/

namespace Verif.FComp

open Verif.Nm Verif.Contract

/-- The exceptions. -/
inductive Err | indexError
  deriving DecidableEq, Repr

/-- A force component: its number of replicas `mrpc[k].nbeads2`, its weight, the weights of the
time step levels, and the potentials, forces and virials (nine columns) of its replicas. -/
structure Comp (m : ℕ) where
  nb : ℕ
  weight : ℝ
  mts : List ℝ
  pots : Fin nb → ℝ
  f : Arr nb m
  virs : Arr nb 9

/-- A system: number of replicas, open paths, cell volume and force components. -/
structure Sys (m : ℕ) where
  n1 : ℕ
  op : List ℕ
  vol : ℝ
  comps : List (Comp m)

/-- Indexing of a python list, negative indices counting from the end. -/
def pyGet {α : Type} (l : List α) (i : ℤ) : Except Err α :=
  if 0 ≤ i then
    match l[i.toNat]? with
    | some x => .ok x
    | none => .error .indexError
  else if 0 ≤ i + l.length then
    match l[(i + l.length).toNat]? with
    | some x => .ok x
    | none => .error .indexError
  else .error .indexError

/-- The row of an array with a nonnegative index. -/
def row {α : Type} {n : ℕ} (x : Fin n → α) (b : ℤ) : Except Err α :=
  if h : b.toNat < n then .ok (x ⟨b.toNat, h⟩) else .error .indexError

open scoped Classical in
/-- `pots_component` (`forces.py` L1205-1219); the number of replicas of the result comes with
it. -/
noncomputable def potsComponent {m : ℕ} (n1 : ℕ) (c : Comp m) (weighted interpolate : Bool) :
    (n : ℕ) × (Fin n → ℝ) :=
  if weighted = true ∧ c.weight = 0 then
    if interpolate then ⟨n1, fun _ => 0⟩ else ⟨c.nb, fun _ => 0⟩
  else
    let pots := if weighted then fun b => c.pots b * c.weight else c.pots
    if interpolate then ⟨n1, b2tob1One n1 pots⟩ else ⟨c.nb, pots⟩

open scoped Classical in
/-- `forces_component` (L1221-1235). -/
noncomputable def forcesComponent {m : ℕ} (n1 : ℕ) (op : List ℕ) (c : Comp m)
    (weighted interpolate : Bool) : (n : ℕ) × Arr n m :=
  if weighted = true ∧ c.weight = 0 then
    if interpolate then ⟨n1, fun _ _ => 0⟩ else ⟨c.nb, fun _ _ => 0⟩
  else
    let f : Arr c.nb m := if weighted then fun b k => c.f b k * c.weight else c.f
    if interpolate then ⟨n1, b2tob1 n1 op f⟩ else ⟨c.nb, f⟩

open scoped Classical in
/-- `virs_component` (L1237-1251).  The array has three dimensions, so that the open paths do
not matter for the interpolation (`nmtransform.py` L315). -/
noncomputable def virsComponent {m : ℕ} (n1 : ℕ) (c : Comp m)
    (weighted interpolate : Bool) : (n : ℕ) × Arr n 9 :=
  if weighted = true ∧ c.weight = 0 then
    if interpolate then ⟨n1, fun _ _ => 0⟩ else ⟨c.nb, fun _ _ => 0⟩
  else
    let v : Arr c.nb 9 := if weighted then fun b k => c.virs b k * c.weight else c.virs
    if interpolate then ⟨n1, b2tob1 n1 [] v⟩ else ⟨c.nb, v⟩

/-- `tensor2vec` (`properties.py` L1035-1049) for a tensor with nine columns. -/
def tensor2vec (t : Fin 9 → ℝ) : Fin 6 → ℝ := ![t 0, t 4, t 8, t 1, t 2, t 5]

/-- The mean over the replicas, numpy's `mean(axis=0)`. -/
noncomputable def mean0 {n m : ℕ} (x : Arr n m) : Fin m → ℝ := fun k => (∑ b, x b k) / n

/-- The output `pot_component` (L390-396). -/
noncomputable def potComponent {m : ℕ} (s : Sys m) (index bead : ℤ) : Except Err ℝ := do
  let c ← pyGet s.comps index
  let p := potsComponent s.n1 c true true
  if bead < 0 then .ok ((∑ b, p.2 b) / s.n1) else row p.2 bead

/-- The output `pot_component_raw` (L406-415). -/
noncomputable def potComponentRaw {m : ℕ} (s : Sys m) (index bead : ℤ) : Except Err ℝ := do
  let c ← pyGet s.comps index
  let p := potsComponent s.n1 c false false
  if bead < 0 then .ok ((∑ b, p.2 b) / s.n1) else row p.2 bead

/-- The output `vir_component` (L426-433). -/
noncomputable def virComponent {m : ℕ} (s : Sys m) (index bead : ℤ) :
    Except Err (Fin 6 → ℝ) := do
  let c ← pyGet s.comps index
  let p := virsComponent s.n1 c true true
  let t ← if bead < 0 then .ok (mean0 p.2) else row p.2 bead
  .ok (fun k => tensor2vec t k / s.vol)

/-- The output `vir_component_raw` (L444-454). -/
noncomputable def virComponentRaw {m : ℕ} (s : Sys m) (index bead : ℤ) :
    Except Err (Fin 6 → ℝ) := do
  let c ← pyGet s.comps index
  let p := virsComponent s.n1 c false false
  let t ← if bead < 0 then .ok (mean0 p.2) else row p.2 bead
  .ok (fun k => tensor2vec t k / s.vol)

/-- The trajectory `forces_component` (L3090-3095). -/
noncomputable def fComponent {m : ℕ} (s : Sys m) (index bead : ℤ) :
    Except Err (Fin m → ℝ) := do
  let c ← pyGet s.comps index
  let p := forcesComponent s.n1 s.op c true true
  if bead < 0 then .ok (fun k => (∑ b, p.2 b k) / s.n1) else row p.2 bead

/-- The trajectory `forces_component_raw` (L3104-3112). -/
noncomputable def fComponentRaw {m : ℕ} (s : Sys m) (index bead : ℤ) :
    Except Err (Fin m → ℝ) := do
  let c ← pyGet s.comps index
  let p := forcesComponent s.n1 s.op c false false
  if bead < 0 then .ok (mean0 p.2) else row p.2 bead

open scoped Classical in
/-- `pot_combine` (`forces.py` L1487-1501). -/
noncomputable def potCombine {m : ℕ} (s : Sys m) (b : Fin s.n1) : ℝ :=
  s.comps.foldl (fun rp c => if c.weight ≠ 0
    then rp + c.weight * c.mts.sum * b2tob1One s.n1 c.pots b else rp) 0

open scoped Classical in
/-- `f_combine` (L1458-1472). -/
noncomputable def fCombine {m : ℕ} (s : Sys m) (b : Fin s.n1) (k : Fin m) : ℝ :=
  s.comps.foldl (fun rf c => if c.weight ≠ 0
    then rf + c.weight * c.mts.sum * b2tob1 s.n1 s.op c.f b k else rf) 0

/-- The output `potential` (`properties.py` L1578-1583), where `forces.pot` is the sum of
`forces.pots`. -/
noncomputable def potential {m : ℕ} (s : Sys m) (bead : ℤ) : Except Err ℝ :=
  if bead < 0 then .ok ((∑ b, potCombine s b) / s.n1) else row (potCombine s) bead

end Verif.FComp
