/-
Model of the force-constant calculations of i-PI: `DynMatrixMover` and its calculators
(ipi/engine/motion/phonons.py), `apply_asr` (the method, phonons.py L194-287, and the function
of ipi/utils/phonontools.py L4-69, which does the same) and the Hessian tools `get_dynmat`,
`clean_hessian`, `get_hessian` (ipi/utils/hesstools.py).

Numbers are reals, rounding and the text of the printed numbers are not modelled.  A flat
coordinate number `i` of the python (`i // 3` the atom, `i % 3` the direction) is an element of
`Fin n` where only the order of the rows matters, and a pair (atom, direction) where the
geometry matters.
-/
import Mathlib.Analysis.Real.Sqrt
import Mathlib.Data.Matrix.Mul
import Mathlib.LinearAlgebra.Matrix.Symmetric
import Mathlib.Data.Sign.Basic

namespace Verif.Phonon

open Matrix

/-- A flattened array. -/
abbrev Vec (ι : Type*) := ι → ℝ

/-! ### Finite differences -/

variable {ι : Type*} [DecidableEq ι]

/-- `plus - minus` for a displacement `dev`: the difference of the gradients on the two sides
(phonons.py L353-358, L409-414, L439-444). -/
def gradDiff (force : Vec ι → Vec ι) (q dev : Vec ι) : Vec ι :=
  -force (q + dev) - -force (q - dev)

/-- One row of the dynamical matrix (`FDPhononCalculator.step`, phonons.py L350-362). -/
noncomputable def fdRow (force : Vec ι → Vec ι) (ism q : Vec ι) (dx : ℝ) (i : ι) : Vec ι :=
  fun j => gradDiff force q (Pi.single i dx) j / (2 * dx) * ism i * ism j

/-- The two matrices of `DynMatrixMover` (phonons.py L68-69), also the part of the mover which
a checkpoint keeps (ipi/inputs/motion/phonons.py L123-124). -/
structure Dyn (ι : Type*) where
  dyn : Matrix ι ι ℝ
  ref : Matrix ι ι ℝ

/-- `FDPhononCalculator.step` (phonons.py L346-366): rows of held coordinates are skipped. -/
noncomputable def fdStep (force : Vec ι → Vec ι) (ism q : Vec ι) (dx : ℝ) (fixed : ι → Bool)
    (i : ι) (s : Dyn ι) : Dyn ι :=
  if fixed i then s
  else ⟨Function.update s.dyn i (fdRow force ism q dx i),
    Function.update s.ref i (fdRow force ism q dx i)⟩

/-- `0.50 * (dm + dm.T)`. -/
noncomputable def symm (m : Matrix ι ι ℝ) : Matrix ι ι ℝ := (1 / 2 : ℝ) • (m + mᵀ)

/-- `FDPhononCalculator.transform` (phonons.py L368-372): both matrices are computed from
`dynmatrix`. -/
noncomputable def fdTransform (s : Dyn ι) : Dyn ι := ⟨symm s.dyn, symm s.dyn⟩

/-- The steps `k, k+1, …` of a run before the last (`DynMatrixMover.step`, phonons.py
L103-106), `m` of them. -/
noncomputable def fdRows {n : ℕ} (force : Vec (Fin n) → Vec (Fin n)) (ism q : Vec (Fin n))
    (dx : ℝ) (fixed : Fin n → Bool) : ℕ → ℕ → Dyn (Fin n) → Dyn (Fin n)
  | _, 0, s => s
  | k, m + 1, s =>
    fdRows force ism q dx fixed (k + 1) m
      (if h : k < n then fdStep force ism q dx fixed ⟨k, h⟩ s else s)

/-- What `FDPhononCalculator.bind` starts from (phonons.py L312-344): zeros when the input
gives no matrix, the given one otherwise. -/
def fdBind (given : Option (Dyn ι)) : Dyn ι := given.getD ⟨0, 0⟩

/-- `DynMatrixMover` in mode `fd` with no sum rule, started at step `k` (zero, or the step of a
checkpoint) and run to its end: `refdynmatrix` when it is printed (phonons.py L103-116). -/
noncomputable def fdRun {n : ℕ} (force : Vec (Fin n) → Vec (Fin n)) (ism q : Vec (Fin n))
    (dx : ℝ) (fixed : Fin n → Bool) (given : Option (Dyn (Fin n))) (k : ℕ) :
    Matrix (Fin n) (Fin n) ℝ :=
  (fdTransform (fdRows force ism q dx fixed k (n - k) (fdBind given))).ref

/-! ### Normal-mode finite differences -/

variable [Fintype ι]

/-- `V`: the eigenvectors in the columns of `U`, divided by the root of the mass (phonons.py
L398-401). -/
def nmV (U : Matrix ι ι ℝ) (ism : Vec ι) : Matrix ι ι ℝ := fun i k => U i k * ism i

/-- `vknorm` (phonons.py L407, L434). -/
noncomputable def colNorm (V : Matrix ι ι ℝ) (k : ι) : ℝ := Real.sqrt (Vᵀ k ⬝ᵥ Vᵀ k)

/-- The displacement of `ENMFDPhononCalculator` (phonons.py L435-437).  Without rounding
`np.sqrt(deltae * 2 / 0)` is infinite and the cap applies, here it is a branch. -/
noncomputable def enmDelta (deltae deltax w2 vk : ℝ) : ℝ :=
  open Classical in
  if w2 = 0 ∨ 100 * deltax < vk * Real.sqrt (deltae * 2 / |w2|) then 100 * deltax
  else vk * Real.sqrt (deltae * 2 / |w2|)

/-- One row of the refined matrix, in the basis of the old eigenvectors (phonons.py L403-417
with `delta = deltax`, L430-447 with `delta = edelta`). -/
noncomputable def nmRow (force : Vec ι → Vec ι) (U : Matrix ι ι ℝ) (ism q : Vec ι) (delta : ℝ)
    (k : ι) : Vec ι :=
  let V := nmV U ism
  Vᵀ *ᵥ fun j =>
    gradDiff force q (fun i => V i k / colNorm V k * delta) j / (2 * delta / colNorm V k)

/-- `refdynmatrix` after all the steps of the modes `nmfd` and `enmfd`. -/
noncomputable def nmRows (force : Vec ι → Vec ι) (U : Matrix ι ι ℝ) (ism q : Vec ι)
    (delta : ι → ℝ) : Matrix ι ι ℝ := fun k => nmRow force U ism q (delta k) k

/-- The first statement of `NMFDPhononCalculator.transform` (phonons.py L420-422). -/
def nmBack (U ref : Matrix ι ι ℝ) : Matrix ι ι ℝ := U * (ref * Uᵀ)

/-- `NMFDPhononCalculator.transform` (phonons.py L419-424): the refined matrix is brought back
to Cartesian coordinates, and then replaced. -/
noncomputable def nmTransform (U : Matrix ι ι ℝ) (s : Dyn ι) : Dyn ι :=
  let s := { s with ref := nmBack U s.ref }
  let rdm := s.dyn
  { s with ref := symm rdm }

/-- The modes `nmfd` and `enmfd` with no sum rule, run to the end: `refdynmatrix` when it is
printed. -/
noncomputable def nmRun (force : Vec ι → Vec ι) (U : Matrix ι ι ℝ) (ism q : Vec ι)
    (delta : ι → ℝ) (dyn : Matrix ι ι ℝ) : Matrix ι ι ℝ :=
  (nmTransform U ⟨dyn, nmRows force U ism q delta⟩).ref

/-! ### What is printed -/

/-- `dmatx + np.eye(len(dmatx)) * deltaw` (phonons.py L121). -/
def shifted (dm : Matrix ι ι ℝ) (deltaw : ℝ) : Matrix ι ι ℝ := dm + deltaw • (1 : Matrix ι ι ℝ)

/-- The files written by `printall` (phonons.py L118-162): the entries for the coordinates
which are not held, and the full Hessian.  `outputShift` is the `output_shift` of the input
(`self.deltaw`, L65): the only call (L110-112) does not pass it on. -/
structure Printed (ι : Type*) (fixed : ι → Bool) where
  dynmat : Matrix {i // fixed i = false} {i // fixed i = false} ℝ
  hess : Matrix {i // fixed i = false} {i // fixed i = false} ℝ
  fullHess : Matrix ι ι ℝ

/-- `printall` as a function of its argument `deltaw` (phonons.py L118-162). -/
noncomputable def printall (dm : Matrix ι ι ℝ) (ism : Vec ι) (fixed : ι → Bool) (deltaw : ℝ) :
    Printed ι fixed where
  dynmat := fun i j => shifted dm deltaw i j
  hess := fun i j => shifted dm deltaw i j / (ism i * ism j)
  fullHess := fun i j => shifted dm deltaw i j / (ism i * ism j)

/-- What `DynMatrixMover.step` prints at the end (phonons.py L110-112). -/
noncomputable def printEnd (dm : Matrix ι ι ℝ) (ism : Vec ι) (fixed : ι → Bool)
    (_outputShift : ℝ) : Printed ι fixed := printall dm ism fixed 0

/-- Column `k` of `eigmode` (phonons.py L182-186) for eigenvectors `w`. -/
noncomputable def eigmode (w : Matrix ι ι ℝ) (ism : Vec ι) (k : ι) : Vec ι :=
  fun i => w i k * ism i / Real.sqrt ((fun i => w i k * ism i) ⬝ᵥ (fun i => w i k * ism i))

/-! ### Sum rules -/

variable {α : Type*} [Fintype α] [DecidableEq α]

/-- `com` (phonons.py L203-208, L241-246). -/
noncomputable def com (m : α → ℝ) (q : α → Fin 3 → ℝ) : Fin 3 → ℝ :=
  fun d => (∑ a, q a d * m a) / ∑ a, m a

/-- `qminuscom` (phonons.py L209, L247). -/
noncomputable def rel (m : α → ℝ) (q : α → Fin 3 → ℝ) : α → Fin 3 → ℝ :=
  fun a d => q a d - com m q d

/-- `np.cross(r, np.identity(3))`: row `k` is the cross product of `r` with the `k`-th unit
vector. -/
def crossId (r : Fin 3 → ℝ) : Matrix (Fin 3) (Fin 3) ℝ :=
  ![![0, r 2, -r 1], ![-r 2, 0, r 0], ![r 1, -r 0, 0]]

/-- `moi` (phonons.py L211-219, L249-257). -/
noncomputable def moi (m : α → ℝ) (q : α → Fin 3 → ℝ) : Matrix (Fin 3) (Fin 3) ℝ :=
  -∑ a, m a • (crossId (rel m q a) * crossId (rel m q a))

/-- `D[k]`, `k < 3`, before normalisation (phonons.py L226-228, L264-266): `np.tile` of the unit
vector, divided by `ism`. -/
noncomputable def transVec (ism : Vec (α × Fin 3)) (k : Fin 3) : Vec (α × Fin 3) :=
  fun x => (if x.2 = k then 1 else 0) / ism x

/-- `R` (phonons.py L260). -/
noncomputable def axes (m : α → ℝ) (q : α → Fin 3 → ℝ) (U : Matrix (Fin 3) (Fin 3) ℝ) (a : α) :
    Fin 3 → ℝ := fun k => ∑ d, rel m q a d * U d k

/-- `D[3 + k]` before normalisation (phonons.py L267-278). -/
noncomputable def rotVec (m : α → ℝ) (q : α → Fin 3 → ℝ) (U : Matrix (Fin 3) (Fin 3) ℝ)
    (ism : Vec (α × Fin 3)) (k : Fin 3) : Vec (α × Fin 3) :=
  fun x => (axes m q U x.1 (k + 1) * U x.2 (k + 2) - axes m q U x.1 (k + 2) * U x.2 (k + 1))
    / ism x

/-- `np.linalg.norm` of a row. -/
noncomputable def norm (v : Vec ι) : ℝ := Real.sqrt (v ⬝ᵥ v)

/-- The rows divided by their lengths (phonons.py L231-232, L281-282); a row of zeros becomes
a row of `nan`, here no value. -/
noncomputable def normalise {κ : Type*} [Fintype κ] (D : κ → Vec ι) : Option (κ → Vec ι) :=
  open Classical in
  if ∃ k, norm (D k) = 0 then none else some fun k j => D k j / norm (D k)

/-- `transfmatrix = np.eye(3 * natoms) - np.dot(D.T, D)` (phonons.py L235, L285). -/
def transf {κ : Type*} [Fintype κ] (D : κ → Vec ι) : Matrix ι ι ℝ :=
  1 - (of D)ᵀ * of D

/-- `np.dot(transfmatrix.T, np.dot(dm, transfmatrix))` (phonons.py L236, L286). -/
def project (T dm : Matrix ι ι ℝ) : Matrix ι ι ℝ := Tᵀ * (dm * T)

/-- The options of `asr` (ipi/inputs/motion/phonons.py L82-90). -/
inductive Asr
  | none
  | poly
  | lin
  | crystal

/-- What comes out of `apply_asr`. -/
inductive AsrOut (ι : Type*)
  /-- A matrix of numbers. -/
  | ok (r : Matrix ι ι ℝ)
  /-- A matrix of `nan`. -/
  | nan
  /-- Python's `None`: the next statement of `DynMatrixMover.step` (`.copy()`, phonons.py L111)
  raises `AttributeError`. -/
  | nothing

/-- The matrix projected with the rows `D`. -/
noncomputable def applyRows {κ : Type*} [Fintype κ] (D : κ → Vec ι) (dm : Matrix ι ι ℝ) :
    AsrOut ι :=
  match normalise D with
  | some D => .ok (project (transf D) dm)
  | .none => .nan

/-- The six rows of the mode `poly`. -/
noncomputable def polyRows (m : α → ℝ) (q : α → Fin 3 → ℝ) (U : Matrix (Fin 3) (Fin 3) ℝ)
    (ism : Vec (α × Fin 3)) : Fin 3 ⊕ Fin 3 → Vec (α × Fin 3)
  | .inl k => transVec ism k
  | .inr k => rotVec m q U ism k

/-- `DynMatrixMover.apply_asr` (phonons.py L194-287).  `U` is the second result of
`np.linalg.eig(moi)`. -/
noncomputable def applyAsr (asr : Asr) (m : α → ℝ) (q : α → Fin 3 → ℝ)
    (U : Matrix (Fin 3) (Fin 3) ℝ) (ism : Vec (α × Fin 3))
    (dm : Matrix (α × Fin 3) (α × Fin 3) ℝ) : AsrOut (α × Fin 3) :=
  match asr with
  | .none => .ok dm
  | .crystal => applyRows (transVec ism) dm
  | .poly => applyRows (polyRows m q U ism) dm
  | .lin => .nothing

/-! ### Hessian tools -/

/-- `dynmat` of `clean_hessian` (hesstools.py L56-57), and of `get_dynmat` for one bead
(L25-29). -/
def massWeigh (ism : Vec ι) (h : Matrix ι ι ℝ) : Matrix ι ι ℝ := fun i j => ism j * (h i j * ism i)

/-- `dd` (hesstools.py L125-127): the signed root of an eigenvalue, in reciprocal centimetres;
`c` is the conversion. -/
noncomputable def wavenumber (c d : ℝ) : ℝ := SignType.sign d * Real.sqrt |d| / c

/-- `np.delete(d, range(a, a + k))`. -/
def deleteRange {β : Type*} (l : List β) (a k : ℕ) : List β := l.take a ++ l.drop (a + k)

/-- The end of `clean_hessian` (hesstools.py L129-167) for the eigenpairs in the order given by
`np.linalg.eigh` (ascending): the numbers of zero and of negative frequencies are counted, and a
block of that many entries is deleted after the negative ones. -/
noncomputable def cleanPairs {β : Type*} (c : ℝ) (pairs : List (ℝ × β)) : List (ℝ × β) :=
  open Classical in
  let nzero := pairs.countP fun p => decide (|wavenumber c p.1| < 1 / 100)
  let nneg := pairs.countP fun p => decide (wavenumber c p.1 < -4)
  if 0 < nzero then deleteRange pairs nneg nzero else pairs

/-! ### The Hessian computed row by row, with its temporary files -/

/-- One row of `get_hessian` (hesstools.py L258-274): coordinate `j` of every bead is displaced
at once, and the row is the difference of the gradients `gm` of all beads. -/
noncomputable def hessRow {β : Type*} (gm : (β → Vec ι) → β → Vec ι) (x0 : β → Vec ι) (d : ℝ)
    (j : ι) : β → Vec ι :=
  fun b k => (gm (fun b i => if i = j then x0 b i + d else x0 b i) b k
    - gm (fun b i => if i = j then x0 b i - d else x0 b i) b k) / (2 * d)

/-- The rows of a matrix, as `get_hessian` stores them: row `j` is zero until it is computed. -/
abbrev Rows (R : Type*) := ℕ → R

/-- The temporary files `hessian_*.tmp`, `hessianEta_*.tmp` present on disk.  A file cut in the
middle by a crash is not modelled: reading one raises an exception (`np.loadtxt`, or the
assignment in L216, which precedes the check of the shape), unless only digits of its last
number are missing. -/
structure Tmp (R E : Type*) where
  hess : ℕ → Option (Rows R)
  eta : ℕ → Option (Rows E)

/-- The search for the latest file (hesstools.py L210-224): `for i in range(ii, -1, -1)`, ended
by the first file found, whose shape is right. -/
def latest {S : Type*} (f : ℕ → Option S) : ℕ → Option (ℕ × S)
  | 0 => (f 0).map (0, ·)
  | i + 1 => match f (i + 1) with
    | some s => some (i + 1, s)
    | none => latest f i

/-- The search for the friction file (hesstools.py L225-246): `np.loadtxt` gives a flat array,
whose shape is never that of `eta_h`, and every file found is replaced by the next one: the
file with the lowest number stays. -/
def lowest {S : Type*} (f : ℕ → Option S) (ii : ℕ) : Option (ℕ × S) :=
  ((List.range (ii + 1)).filterMap fun i => (f i).map (i, ·)).head?

/-- The variables of the loop: the next coordinate, and the matrices. -/
structure Work (R E : Type*) where
  next : ℕ
  h : Rows R
  eta : Rows E

variable {R E : Type*} [Zero R] [Zero E]

/-- The start of `get_hessian` (hesstools.py L203-246). -/
def hessStart (friction : Bool) (ii : ℕ) (t : Tmp R E) : Work R E :=
  let w : Work R E := match latest t.hess ii with
    | some (i, h) => ⟨i + 1, h, 0⟩
    | none => ⟨0, 0, 0⟩
  if friction then
    match lowest t.eta ii with
    | some (i, e) => { w with next := i + 1, eta := e }
    | none => w
  else w

/-- The operations on the disk of one call, in their order, the computed rows in between. -/
inductive Op (R E : Type*)
  | writeHess (j : ℕ) (h : Rows R)
  | writeEta (j : ℕ) (e : Rows E)
  | rmEta (j : ℕ)
  | rmHess (j : ℕ)

/-- The effect of an operation (`open(…, "w")` or `os.remove`, hesstools.py L275-296). -/
def Op.run : Op R E → Tmp R E → Tmp R E
  | .writeHess j h, t => { t with hess := Function.update t.hess j (some h) }
  | .writeEta j e, t => { t with eta := Function.update t.eta j (some e) }
  | .rmEta j, t => { t with eta := Function.update t.eta j none }
  | .rmHess j, t => { t with hess := Function.update t.hess j none }

/-- The loop over the coordinates (hesstools.py L249-283), `m` of them; `g j` and `ge j` are the
rows computed for coordinate `j`.  Returns the operations and the matrices. -/
def hessLoop (friction : Bool) (fixed : ℕ → Bool) (g : Rows R) (ge : Rows E) :
    ℕ → Work R E → List (Op R E) × Work R E
  | 0, w => ([], w)
  | m + 1, w =>
    if fixed w.next then hessLoop friction fixed g ge m { w with next := w.next + 1 }
    else
      let h := Function.update w.h w.next (g w.next)
      let e := if friction then Function.update w.eta w.next (ge w.next) else w.eta
      let r := hessLoop friction fixed g ge m ⟨w.next + 1, h, e⟩
      (.writeHess w.next h :: (if friction then [.writeEta w.next e] else []) ++ r.1, r.2)

/-- The removal of the files (hesstools.py L287-296): the missing ones are passed over. -/
def hessClean (ii : ℕ) : List (Op R E) :=
  (List.range ii).flatMap fun i => [.rmEta i, .rmHess i]

/-- A whole call of `get_hessian`: what it does to the disk, and what it returns. -/
def hessCall (friction : Bool) (ii : ℕ) (fixed : ℕ → Bool) (g : Rows R) (ge : Rows E)
    (t : Tmp R E) : List (Op R E) × Rows R × Rows E :=
  let w := hessStart friction ii t
  let r := hessLoop friction fixed g ge (ii - w.next) w
  (r.1 ++ hessClean ii, r.2.h, r.2.eta)

/-- The disk after a call killed between its `k`-th operation and the next one. -/
def hessKilled (friction : Bool) (ii : ℕ) (fixed : ℕ → Bool) (g : Rows R) (ge : Rows E)
    (t : Tmp R E) (k : ℕ) : Tmp R E :=
  ((hessCall friction ii fixed g ge t).1.take k).foldl (fun t o => o.run t) t

/-- The disk after calls killed one after the other. -/
def hessHistory (friction : Bool) (ii : ℕ) (fixed : ℕ → Bool) (g : Rows R) (ge : Rows E)
    (t : Tmp R E) (ks : List ℕ) : Tmp R E :=
  ks.foldl (hessKilled friction ii fixed g ge) t

end Verif.Phonon
