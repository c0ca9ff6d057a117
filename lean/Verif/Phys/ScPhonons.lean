import Mathlib.Analysis.SpecialFunctions.Log.Basic
import Mathlib.Analysis.SpecialFunctions.Trigonometric.DerivHyp
import Mathlib.Analysis.Real.Sqrt
import Mathlib.Data.Matrix.Mul
import Mathlib.Data.Matrix.Diagonal

/-!
# Self-consistent phonons

Model of `SCPhononsMover` and `SCPhononator` (`/repo/ipi/engine/motion/scphonons.py`), with exact real
numbers. The diagonalisation `np.linalg.eigh` and the acoustic sum rule (`apply_asr`, modelled in
`Phys/Phonons.lean`) are parameters. Not modelled: messages, the generation of the random sequence,
the output files of the force constants, positions and frequencies.
-/

namespace Verif.Scp

open Finset Matrix

/-- Vectors with one entry per degree of freedom (`dof = 3 natoms`). -/
abbrev Vec (d : ℕ) := Fin d → ℝ
/-- Matrices of that size. -/
abbrev Mat (d : ℕ) := Matrix (Fin d) (Fin d) ℝ

/-! ## The samples of one iteration -/

/-- The index into the random sequence for the pair starting at `imc`, `irng` in
`SCPhononator.reset` (L329). -/
def irng (isc maxSteps imc : ℕ) : ℕ := isc * maxSteps / 2 + (imc + 1) / 2

/-- Which sample is which: the random vector used, and whether it is inverted. -/
structure Draw where
  rng : ℕ
  inverted : Bool
deriving DecidableEq, Repr

/-- The loop of `SCPhononator.reset` that makes the samples (L328-345), for `fuel` pairs. `x` has
`maxSteps` rows, writing beyond them raises `IndexError` (`none`); so does reading beyond the `nseq`
rows of the random sequence. -/
def draws (isc maxSteps nseq : ℕ) : ℕ → ℕ → List Draw → Option (List Draw)
  | 0, _, acc => some acc
  | fuel + 1, imc, acc =>
    if imc ≤ maxSteps then
      if irng isc maxSteps imc < nseq then
        -- self.x[isc, imc - 1] = q + x; imc += 1; self.x[isc, imc - 1] = q - x; imc += 1
        if imc < maxSteps then
          draws isc maxSteps nseq fuel (imc + 2)
            (acc ++ [⟨irng isc maxSteps imc, false⟩, ⟨irng isc maxSteps imc, true⟩])
        else none
      else none
    else some acc

/-- The samples of iteration `isc`; the random sequence has `max_steps * max_iter` rows (pseudo
random numbers, L163-166). -/
def allDraws (isc maxSteps maxIter : ℕ) : Option (List Draw) :=
  draws isc maxSteps (maxSteps * maxIter) (maxSteps + 1) 1 []

/-- One sample: `q ± isqM sqtD xi` (L334-344); `A` is the matrix `isqM sqtD`, `seq` the normal
deviates. -/
noncomputable def sample {d : ℕ} (q : Vec d) (A : Mat d) (seq : ℕ → Vec d) (w : Draw) : Vec d :=
  if w.inverted then q + -(A *ᵥ seq w.rng) else q + A *ᵥ seq w.rng

/-- The state of the evaluation of the forces: the counter `imc` and the arrays `v`, `f` of the
iteration. -/
structure Eval (d : ℕ) where
  imc : ℕ
  v : ℕ → Option ℝ
  f : ℕ → Option (Vec d)

/-- `SCPhononator.step` (L385-400) without files: `nparallel` samples are evaluated. -/
def evalStep {d : ℕ} (np : ℕ) (x : ℕ → Vec d) (pot : Vec d → ℝ) (force : Vec d → Vec d)
    (s : Eval d) : Eval d where
  imc := s.imc + np
  v := fun k => if s.imc - 1 ≤ k ∧ k < s.imc - 1 + np then some (pot (x k)) else s.v k
  f := fun k => if s.imc - 1 ≤ k ∧ k < s.imc - 1 + np then some (force (x k)) else s.f k

/-- Calls of `SCPhononsMover.step` (L178-192) as long as `imc <= max_steps`. -/
def evalAll {d : ℕ} (np maxSteps : ℕ) (x : ℕ → Vec d) (pot : Vec d → ℝ) (force : Vec d → Vec d) :
    ℕ → Eval d → Eval d
  | 0, s => s
  | n + 1, s =>
    if s.imc ≤ maxSteps then evalAll np maxSteps x pot force n (evalStep np x pot force s) else s

/-! ## Frequencies, force constants and correlations -/

/-- The statistics (`mode`): quantum or classical. -/
inductive Stat where
  | qn
  | cl

/-- What `apply_hpf` and `get_KnD` set (L813-907). -/
structure Modes (d : ℕ) where
  w2 : Vec d
  U : Mat d
  z : Fin d → Bool
  V : Mat d
  K : Mat d
  iD : Mat d
  D : Mat d
  iK : Mat d
  /-- `isqM sqtD`, the product used to make the samples (L336) -/
  A : Mat d

/-- The parameters: masses `m3`, statistics, temperature (in energy units), `atol`, `eigh`. -/
structure Par (d : ℕ) where
  m3 : Vec d
  stat : Stat
  temp : ℝ
  atol : ℝ
  eigh : Mat d → Vec d × Mat d

/-- `np.diag(np.sqrt(m3))`. -/
noncomputable def sqM {d : ℕ} (p : Par d) : Mat d := diagonal fun a => √(p.m3 a)
/-- `np.diag(np.sqrt(1 / m3))`. -/
noncomputable def isqM {d : ℕ} (p : Par d) : Mat d := diagonal fun a => √(1 / p.m3 a)

/-- The loop at the end of `get_KnD` (L865-877): the sum over the modes that are not chopped of `g`
times the projector on the mode. -/
noncomputable def build {d : ℕ} (U : Mat d) (z : Fin d → Bool) (g : Vec d) : Mat d :=
  ∑ i, if z i then 0 else g i • vecMulVec (fun a => U a i) fun a => U a i

/-- The mean square displacement of a mode of frequency `w` (`td` in `get_KnD`, L826-845). -/
noncomputable def td (s : Stat) (temp w : ℝ) : ℝ :=
  match s with
  | .qn => 1 / 2 * (1 / w) / Real.tanh (1 / 2 * w / temp)
  | .cl => (1 / w) ^ 2 * temp

/-- `apply_hpf` (L886-907): absolute values of the eigenvalues, a second diagonalisation, and the mask
of the small ones. Gives the new dynamical matrix, the eigenvalues, the modes and the mask.
Simplification: entries of `w`, `iw`, `iw2` for chopped modes keep old values in the program and are
never used. -/
noncomputable def hpf {d : ℕ} (p : Par d) (dyn : Mat d) : Mat d × Vec d × Mat d × (Fin d → Bool) :=
  let e1 := p.eigh dyn
  let dyn' := (e1.2 * diagonal fun i => |e1.1 i|) * e1.2ᵀ
  let e2 := p.eigh dyn'
  (dyn', e2.1, e2.2, fun i => decide (e2.1 i < p.atol))

/-- `apply_hpf` and `get_KnD` together (L813-907); the new dynamical matrix comes with it. -/
noncomputable def modes {d : ℕ} (p : Par d) (dyn : Mat d) : Mat d × Modes d :=
  let r := hpf p dyn
  let dyn' := r.1
  let w2 := r.2.1
  let U := r.2.2.1
  let z := r.2.2.2
  let t : Vec d := fun i => td p.stat p.temp (√(w2 i))
  (dyn', {
    w2 := fun i => if z i then 0 else w2 i
    U := U
    z := z
    V := isqM p * U
    K := sqM p * (dyn' * sqM p)
    iD := sqM p * (build U z (fun i => 1 / t i) * sqM p)
    D := isqM p * (build U z t * isqM p)
    iK := isqM p * (build U z (fun i => 1 / w2 i) * isqM p)
    A := isqM p * build U z fun i => √(t i) })

/-! ## Averages over reweighted samples -/

/-- What is kept of an iteration: the centre and the inverse correlation the samples were made with,
the samples and their forces (`self.q[i]`, `self.iD[i]`, `self.x[i]`, `self.f[i]`). -/
structure Batch (d M : ℕ) where
  q0 : Vec d
  iD0 : Mat d
  x : Fin M → Vec d
  f : Fin M → Vec d

/-- The unnormalised weights of `calculate_weights` (L786-789). -/
noncomputable def rw {d M : ℕ} (q : Vec d) (iD : Mat d) (b : Batch d M) (s : Fin M) : ℝ :=
  Real.exp (-(∑ a, 1 / 2 * (iD *ᵥ (q - b.x s)) a * (q - b.x s) a)
    + ∑ a, 1 / 2 * (b.iD0 *ᵥ (b.x s - b.q0)) a * (b.x s - b.q0) a)

/-- `np.var`. -/
noncomputable def var {M : ℕ} (y : Fin M → ℝ) : ℝ :=
  (∑ s, (y s - (∑ r, y r) / M) ^ 2) / M

/-- The batch weight, second result of `calculate_weights` (L791-805). If the sum of the weights is
below `1e-24` they are set to zero, the logarithms are minus infinity, their variance is not a
number, and `nan_to_num` makes that zero. -/
noncomputable def batchW {d M : ℕ} (expo : ℕ) (q : Vec d) (iD : Mat d) (b : Batch d M) : ℝ :=
  if ∑ s, rw q iD b s < 1 / 10 ^ 24 then 0 ^ expo
  else Real.exp (-var fun s => Real.log (rw q iD b s / ∑ r, rw q iD b r)) ^ expo

/-- The harmonic force `fh` (L714, L751): `-(x - q) K`. -/
def harm {d : ℕ} (q : Vec d) (K : Mat d) (x : Vec d) : Vec d := -((x - q) ᵥ* K)

/-- The average difference from the harmonic force in one batch, `avg_fi` (L722-724). -/
noncomputable def avgF {d M : ℕ} (q : Vec d) (K iD : Mat d) (b : Batch d M) : Vec d := fun a =>
  (∑ s, rw q iD b s * (b.f s a - harm q K (b.x s) a)) / ∑ s, rw q iD b s

/-- Its variance, `var_fi` (L725). -/
noncomputable def varF {d M : ℕ} (q : Vec d) (K iD : Mat d) (b : Batch d M) : Vec d := fun a =>
  (∑ s, rw q iD b s * (b.f s a - harm q K (b.x s) a - avgF q K iD b a) ^ 2)
    / ((∑ s, rw q iD b s) - (∑ s, rw q iD b s ^ 2) / ∑ s, rw q iD b s)

/-- `weighted_force` (L693-730): the average, its error, and the weights of the batches.
Simplification: if all the batch weights are zero the program gets `0 / 0`, not a number. -/
noncomputable def weightedForce {d M : ℕ} (expo : ℕ) (q : Vec d) (K iD : Mat d)
    (bs : List (Batch d M)) : Vec d × Vec d × List ℝ :=
  let norm := (bs.map fun b => batchW expo q iD b).sum
  (fun a => (bs.map fun b => batchW expo q iD b * avgF q K iD b a).sum / norm,
   fun a => √((bs.map fun b => batchW expo q iD b ^ 2 * varF q K iD b a).sum / norm ^ 2 / M),
   bs.map fun b => batchW expo q iD b)

/-- The correction of the force constants from one batch, `avg_dKi` (L761). -/
noncomputable def avgDK {d M : ℕ} (q : Vec d) (K iD : Mat d) (b : Batch d M) : Mat d :=
  (1 / ∑ s, rw q iD b s) • -(iD * Matrix.of fun j a =>
    ∑ s, (b.f s a - harm q K (b.x s) a) * rw q iD b s * (b.x s - q) j)

/-- `weighted_hessian` (L732-769). -/
noncomputable def weightedHessian {d M : ℕ} (expo : ℕ) (q : Vec d) (K iD : Mat d)
    (bs : List (Batch d M)) : Mat d :=
  let norm := (bs.map fun b => batchW expo q iD b).sum
  (1 / norm) • (bs.map fun b => batchW expo q iD b
    • (K + (1 / 2 : ℝ) • (avgDK q K iD b + (avgDK q K iD b)ᵀ))).sum

/-! ## Moving the centre -/

/-- `displace_mode`. -/
inductive Disp where
  | ik
  | sd
  | nmik
  | rnmik

/-- Options of the optimisation. `asr` is `apply_asr` at the present positions. -/
structure Opt (d : ℕ) where
  precheck : Bool
  disp : Disp
  tau : ℝ
  wthr : ℝ
  expo : ℕ
  asr : Vec d → Mat d → Mat d

/-- The present centre and modes, and the dynamical matrix. -/
structure St (d : ℕ) where
  q : Vec d
  dyn : Mat d
  md : Modes d

/-- The forces along the modes, with the chopped modes set to zero, and their errors
(L461-465, L567-570). -/
noncomputable def fnm {d : ℕ} (md : Modes d) (f : Vec d) : Vec d := fun i =>
  if md.z i then 0 else (md.Vᵀ *ᵥ f) i

/-- The errors along the modes, `fnm_err`. -/
noncomputable def fnmErr {d : ℕ} (md : Modes d) (ferr : Vec d) : Vec d := fun i =>
  √(∑ a, md.V a i ^ 2 * ferr a ^ 2)

/-- "All the average force components are statistically insignificant" (L467, L609, L676). -/
def Insignificant {d : ℕ} (f err : Vec d) : Prop := ∀ i, |f i| < err i

/-- The new dynamical matrix from the averaged force constants, and the new modes (L494-505,
L524-535, L553-564, L651-661). -/
noncomputable def newModes {d : ℕ} (p : Par d) (o : Opt d) (q : Vec d) (k : Mat d) :
    Mat d × Modes d :=
  modes p (o.asr q (isqM p * (((1 / 2 : ℝ) • (k + kᵀ)) * isqM p)))

/-- One pass of the inner loop of `rnmik` (L597-646): `none` when the loop is left. `last` is `w`,
the weight of the last batch in the previous pass, `scale` is `scale_forces`. -/
noncomputable def innerPass {d M : ℕ} (o : Opt d) (bs : List (Batch d M)) (s : St d)
    (last scale : ℝ) : Option (Vec d × ℝ × ℝ) :=
  let r := weightedForce o.expo s.q s.md.K s.md.iD bs
  let w := r.2.2.getLastD 0
  let scale' := if |w - last| < 1 / 10 ^ 4 then scale * (11 / 10)
    else if |w - last| > 5 / 10 ^ 2 then scale / (11 / 10) else scale
  let g := fnm s.md r.1
  let e := fnmErr s.md r.2.1
  open Classical in
  if Insignificant g e then none
  else if ∀ w ∈ r.2.2, w < o.wthr then none
  else
    let dq : Vec d := fun i =>
      if s.md.z i then 0 else if |g i| < e i then 0 else 1 / s.md.w2 i * g i * scale' / d
    some (s.q + s.md.V *ᵥ dq, w, scale')

/-- `SCPhononator.displace` (L446-691) up to the loops of `rnmik` (`innerPass`): `none` stands for
entering those loops. After the precheck, if the forces are significant, the program goes on with
`if displace_mode == "ik" ... elif ...`; the branch for `sd` hangs on the `if` of the precheck
(L482). -/
noncomputable def displace {d M : ℕ} (p : Par d) (o : Opt d) (bs : List (Batch d M)) (s : St d) :
    Option (St d) :=
  let r := weightedForce o.expo s.q s.md.K s.md.iD bs
  let k := weightedHessian o.expo s.q s.md.K s.md.iD bs
  let rest : St d → Option (St d) := fun s =>
    match o.disp with
    | .ik =>
      let r := weightedForce o.expo s.q s.md.K s.md.iD bs
      let q' := s.q + s.md.iK *ᵥ r.1
      let k := weightedHessian o.expo q' s.md.K s.md.iD bs
      let n := newModes p o q' k
      some ⟨q', n.1, n.2⟩
    | .nmik =>
      let r := weightedForce o.expo s.q s.md.K s.md.iD bs
      let k := weightedHessian o.expo s.q s.md.K s.md.iD bs
      let n := newModes p o s.q k
      let g := fnm n.2 r.1
      let e := fnmErr n.2 r.2.1
      let dq : Vec d := fun i =>
        if n.2.z i then 0 else if |g i| < e i then 0 else 1 / n.2.w2 i * g i
      some ⟨s.q + n.2.V *ᵥ dq, n.1, n.2⟩
    | .rnmik => none
    | .sd => some s
  open Classical in
  if o.precheck then
    if Insignificant (fnm s.md r.1) (fnmErr s.md r.2.1) then some s else rest s
  else
    match o.disp with
    | .sd =>
      let q' := s.q + o.tau • (s.md.D *ᵥ r.1)
      let n := newModes p o q' k
      some ⟨q', n.1, n.2⟩
    | _ => rest s

/-! ## Files -/

/-- The file with the samples of an iteration and the one with their forces: number of rows written
and the values (rows beyond `max_steps` only occur when a run has appended to the files of another
one). -/
structure Files (d : ℕ) where
  x : ℕ → Option (List (Vec d))

/-- Reading the samples of an iteration into `self.x[isc]` (`np.loadtxt`, L318-324): the file must
have `max_steps` rows, otherwise the assignment raises `ValueError` (`none`). -/
def loadX {d : ℕ} (M : ℕ) (rows : List (Vec d)) : Option (List (Vec d)) :=
  if rows.length = M then some rows else none

/-- `reset` as far as the samples go (L305-345): the centre and the inverse correlation are those of
the present state, the samples come from the file if there is one. -/
def resetX {d : ℕ} (M : ℕ) (fs : Files d) (isc : ℕ) (fresh : List (Vec d)) :
    Option (List (Vec d)) :=
  match fs.x isc with
  | some rows => loadX M rows
  | none => some fresh

/-- `print_energetics` (L402-440) as far as the samples go: `get_output`
(`/repo/ipi/engine/outputs.py` L93-103) opens files for writing in a run that starts from the
beginning (`fStart`), where an existing file is moved away, and appends otherwise. -/
def printX {d : ℕ} (fStart : Bool) (fs : Files d) (isc : ℕ) (x : List (Vec d)) : Files d where
  x := fun k => if k = isc then
      some (if fStart then x else (fs.x isc).getD [] ++ x)
    else fs.x k

/-- What an iteration keeps after `reset` (L267-268: `self.iD[isc]`, `self.q[isc]` are
the present ones, also when the samples are read from a file) and after the forces have been
evaluated or read. -/
def kept {d M : ℕ} (s : St d) (x f : Fin M → Vec d) : Batch d M := ⟨s.q, s.md.iD, x, f⟩

/-- Options that an input file may set (`/repo/ipi/inputs/motion/scphonons.py` L44-163), those of
`Opt` without the function, and `checkweights`. -/
structure SOpts where
  disp : Disp
  tau : ℝ
  expo : ℕ
  wthr : ℝ
  precheck : Bool
  checkweights : Bool

/-- Writing a restart file (`InputSCPhonons.store`, L170-185) and reading it: the fields that `store`
leaves out come back with their defaults (L115-138). -/
noncomputable def reread (o : SOpts) : SOpts :=
  { disp := o.disp, tau := o.tau, expo := o.expo, wthr := 9 / 10, precheck := true,
    checkweights := true }

end Verif.Scp
