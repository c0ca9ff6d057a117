import Mathlib.Analysis.SpecialFunctions.Log.Basic
import Mathlib.Analysis.Real.Sqrt
import Mathlib.Data.Matrix.Mul
import Mathlib.Data.Matrix.Diagonal

/-!
# Anharmonic vibrations: independent modes and the vibrational self-consistent field

Model of `NormalModeMover`, `IMF` and `VSCF` (`/repo/ipi/engine/motion/vscf.py`), with exact real
numbers. The potential is a function of the displacements along normal modes. The diagonalisation
`np.linalg.eigh` is a parameter and the interpolation by splines is taken to be exact where it is used.
Not modelled: messages, the values of the harmonic oscillator functions `psi`, the text of the files.
-/

namespace Verif.Vscf

open Finset Matrix

/-! ## Modes -/

/-- The limit below which a squared frequency counts as zero (`1e-15`, L206-207). -/
noncomputable def wZero : ℝ := 1 / 10 ^ 15

/-- The limit below which a mode is ignored, `9.1126705e-06` (two wave numbers; L348, L799). -/
noncomputable def wMin : ℝ := 91126705 / 10 ^ 13

/-- The number of zero modes, `imm.nz` (`IMF.bind` L207); `w2` are the eigenvalues in increasing
order. -/
noncomputable def nzero (d : ℕ) (w2 : ℕ → ℝ) : ℕ :=
  ((range d).filter fun i => |w2 i| < wZero).card

/-- The frequencies (`IMF.bind` L211-212): zero for the first `nz` modes, the square root for the
others, which for negative numbers is not a number (`none`). -/
noncomputable def freq (nz : ℕ) (w2 : ℕ → ℝ) (i : ℕ) : Option ℝ :=
  if i < nz then some 0 else if w2 i < 0 then none else some (Real.sqrt (w2 i))

/-- The test `w[i] < 9.1126705e-06`; a comparison with something that is not a number is false. -/
noncomputable def tiny (nz : ℕ) (w2 : ℕ → ℝ) (i : ℕ) : Bool :=
  match freq nz w2 i with
  | none => false
  | some w => decide (w < wMin)

/-! ## Sampling along one mode -/

/-- One line of the table of a mode: displacement, potential and force. -/
structure Sample where
  q : ℝ
  v : ℝ
  f : ℝ

/-- What the mapping of a mode depends on: `U x` and `G x` are the potential of the simulation cell
displaced by `x` along the mode and the force along the mode there. -/
structure Surf where
  U : ℝ → ℝ
  G : ℝ → ℝ
  nprim : ℝ
  w2 : ℝ

/-- The potential at the minimum, `v0` (L431). -/
noncomputable def Surf.v0 (S : Surf) : ℝ := S.U 0 / S.nprim

/-- The potential without its harmonic part at counter `c`, `dv` (`IMF.step` L480-484); the displacement
is `dev * counter` with `dev = V nmd sqrt(nprim)` (L460). -/
noncomputable def Surf.dv (S : Surf) (nmd : ℝ) (c : ℤ) : ℝ :=
  S.U (nmd * Real.sqrt S.nprim * c) / S.nprim - 1 / 2 * S.w2 * (nmd * c) ^ 2 - S.v0

/-- The force without its harmonic part, `df` (L485-488). -/
noncomputable def Surf.df (S : Surf) (nmd : ℝ) (c : ℤ) : ℝ :=
  S.G (nmd * Real.sqrt S.nprim * c) / S.nprim + S.w2 * (nmd * c)

/-- The line added to the lists (L493-495). -/
noncomputable def Surf.sample (S : Surf) (nmd : ℝ) (c : ℤ) : Sample :=
  ⟨nmd * c, S.dv nmd c, S.df nmd c⟩

/-- The test that ends the sampling in one direction (L498-501); `emax` is `nevib * nmevib`. -/
def Surf.stop (S : Surf) (emax nmd : ℝ) (c : ℤ) : Prop :=
  emax < |1 / 2 * S.w2 * (nmd * c) ^ 2 + S.dv nmd c|

open Classical in
/-- One of the inner loops (L474-504, L515-545): the counters visited from `c` in steps of `delta`
until the test holds; `none` when the fuel is used up. -/
noncomputable def sweep (stop : ℤ → Prop) (delta : ℤ) : ℕ → ℤ → List ℤ → Option (List ℤ)
  | 0, _, _ => none
  | fuel + 1, c, acc =>
    if stop c then some (acc ++ [c]) else sweep stop delta fuel (c + delta) (acc ++ [c])

/-- The spacing of the samples in iteration `k`, `nmd` (L456-459): `fnmrms * 0.5**k * 2.0` times the
root mean square displacement. -/
noncomputable def spacing (fnmrms rms : ℝ) (k : ℕ) : ℝ := fnmrms * (1 / 2) ^ k * 2 * rms

/-- The change of the counter (L465-468). -/
def delta (k : ℕ) : ℤ := if k = 0 then 1 else 2

/-- One iteration of the loop over sampling densities, up to the fit (L450-545). -/
noncomputable def pass (S : Surf) (emax fnmrms rms : ℝ) (fuel k : ℕ) : Option (List Sample) :=
  match sweep (S.stop emax (spacing fnmrms rms k)) (delta k) fuel 1 [] with
  | none => none
  | some cp =>
    match sweep (S.stop emax (spacing fnmrms rms k)) (-delta k) fuel (-1) [] with
    | none => none
    | some cn => some ((cp ++ cn).map (S.sample (spacing fnmrms rms k)))

/-- The table of a mode after `n` iterations (L421-441 and the loop). -/
noncomputable def table (S : Surf) (emax fnmrms rms : ℝ) (fuel : ℕ) : ℕ → Option (List Sample)
  | 0 => some [⟨0, 0, S.G 0 / S.nprim⟩]
  | n + 1 =>
    match table S emax fnmrms rms fuel n with
    | none => none
    | some l =>
      match pass S emax fnmrms rms fuel n with
      | none => none
      | some m => some (l ++ m)

/-! ## The Schroedinger equation in a basis -/

/-- The matrix before `h += h.T` (`solve_schroedingers_equation` L312-319). -/
noncomputable def half {nb G : ℕ} (hw : ℝ) (psi : Fin nb → Fin G → ℝ) (vg : Fin G → ℝ) :
    Matrix (Fin nb) (Fin nb) ℝ := fun i j =>
  if i = j then (∑ g, psi i g * psi j g * vg g) * (1 / 2) + 1 / 2 * ((i : ℝ) + 1 / 2) * hw
  else if i < j then ∑ g, psi i g * psi j g * vg g
  else 0

/-- The Hamiltonian, after `h += h.T` (L320). -/
noncomputable def ham {nb G : ℕ} (hw : ℝ) (psi : Fin nb → Fin G → ℝ) (vg : Fin G → ℝ) :
    Matrix (Fin nb) (Fin nb) ℝ := half hw psi vg + (half hw psi vg)ᵀ

/-- The free energy from the levels, `A` (L326). -/
noncomputable def freeE {nb : ℕ} (T : ℝ) (e : Fin nb → ℝ) : ℝ :=
  -(Real.log (∑ i, Real.exp (-1 * e i / T))) * T

/-- The internal energy, `E` (L327-329). -/
noncomputable def intE {nb : ℕ} (T : ℝ) (e : Fin nb → ℝ) : ℝ :=
  (∑ i, e i * Real.exp (-1 * e i / T)) / ∑ i, Real.exp (-1 * e i / T)

/-- The levels of the harmonic oscillator used for `Ahar` and `Ehar` (L642-671). -/
noncomputable def harLevels (nb : ℕ) (w : ℝ) : Fin nb → ℝ := fun i => w * (1 / 2 + i)

/-- The harmonic free energy of a mode as it is printed at the end (`IMF.terminate` L693-706). -/
noncomputable def harFree (T w : ℝ) : ℝ := 1 / 2 * w + T * Real.log (1 - Real.exp (-w / T))

open Classical in
/-- The loop that enlarges the basis (L389-417, L566-601): `A n` is the free energy with `n` functions,
`den` is `dof - nz`, `prev` the last value (first `1e-20`). Gives the number of functions and the
free energy. -/
noncomputable def basisLoop (A : ℕ → ℝ) (den thr : ℝ) : ℕ → ℕ → ℝ → Option (ℕ × ℝ)
  | 0, _, _ => none
  | fuel + 1, n, prev =>
    if |A n - prev| / den < thr then some (n, A n) else basisLoop A den thr fuel (n + 5) (A n)

/-- `1e-20`. -/
noncomputable def tiny20 : ℝ := 1 / 10 ^ 20

/-- The first basis when the surface is sampled (L567). -/
def firstBasis (nbasis : ℕ) : ℕ := max 1 (nbasis - 5)

/-- The first basis when the samples are read from a file (L391; L390 is overwritten). -/
def firstBasisLoaded (nbasis : ℕ) : ℕ := nbasis

/-! ## The steps of the independent mode calculation -/

/-- What `IMF.step` adds up over the modes. -/
structure Totals where
  nz : ℕ
  anh : ℝ
  har : ℝ
  v0 : ℝ
  /-- the modes treated, in order -/
  treated : List ℕ

/-- `IMF.step` for one mode (L336-363, L372, L431-437, L677-680). `A i`, `H i` are the anharmonic and the
harmonic free energy of mode `i`, `file i` says whether its samples are read from a file, which leaves
`v0` as it is. -/
noncomputable def modeStep (w2 : ℕ → ℝ) (nz0 : ℕ) (A H : ℕ → ℝ) (file : ℕ → Bool) (pot : ℝ)
    (t : Totals) (i : ℕ) : Totals :=
  if i < t.nz then t
  else if tiny nz0 w2 i then { t with nz := t.nz + 1 }
  else { t with
    anh := t.anh + A i
    har := t.har + H i
    v0 := if file i then t.v0 else pot
    treated := t.treated ++ [i] }

/-- A run from step `s` to the last mode; a run that is continued begins with zero totals (`IMF.bind`
L270-276). -/
noncomputable def modeRun (d : ℕ) (w2 : ℕ → ℝ) (nz0 : ℕ) (A H : ℕ → ℝ) (file : ℕ → Bool) (pot : ℝ)
    (s : ℕ) : Totals :=
  (List.range' s (d - s)).foldl (modeStep w2 nz0 A H file pot) ⟨nz0, 0, 0, 0, []⟩

/-- The correction to the free energy that is printed (`IMF.terminate` L711-718). -/
noncomputable def correction (nprim : ℝ) (t : Totals) : ℝ := (t.anh - t.har) / nprim

/-- The harmonic free energy that is printed (L691-710): the sum over the modes from `nz` on. -/
noncomputable def printedHar (d : ℕ) (w2 : ℕ → ℝ) (T nprim : ℝ) (t : Totals) : ℝ :=
  (∑ i ∈ (range d).filter fun i => t.nz ≤ i, harFree T (Real.sqrt (w2 i))) / nprim + t.v0

/-! ## Vibrational self-consistent field: maps -/

/-- The modes that are considered, `self.inms` (`VSCF.bind` L797-810). -/
noncomputable def inms (d nz : ℕ) (w2 : ℕ → ℝ) : List ℕ :=
  (List.range d).filter fun i => !tiny nz w2 i

/-- Ways for a step to fail. -/
inductive Err
  | typeError
  | indexError
  | noFile
deriving DecidableEq, Repr

/-- The list of modes read from the file of an earlier run (L791-795): `np.loadtxt(...).tolist()` of a
file with one number is that number, and `len` of it fails (L823). -/
def readModes (l : List ℕ) : Except Err (List ℕ) :=
  if l.length = 1 then .error .typeError else .ok l

open Classical in
/-- The samples in one direction of `one_dimensional_mapper` (L1431-1446, L1453-1468): `P c` is the
potential at `c` times the displacement; two more points are added at the end. Gives the number of
points and the samples. -/
noncomputable def half1d (P : ℤ → ℝ) (v0 emax : ℝ) (sgn : ℤ) :
    ℕ → ℕ → List ℝ → Option (ℕ × List ℝ)
  | 0, _, _ => none
  | fuel + 1, c, acc =>
    if emax < |P (sgn * c) - v0| then
      some (c, acc ++ [P (sgn * c), P (sgn * c + sgn), P (sgn * c + sgn + sgn)])
    else half1d P v0 emax sgn fuel (c + 1) (acc ++ [P (sgn * c)])

/-- `one_dimensional_mapper` (L1415-1472). -/
noncomputable def map1d (P : ℤ → ℝ) (v0 emax : ℝ) (fuel : ℕ) : Option (ℕ × ℕ × List ℝ) :=
  match half1d P v0 emax (-1) fuel 1 [v0] with
  | none => none
  | some (neg, l) =>
    match half1d P v0 emax 1 fuel 1 l.reverse with
    | none => none
    | some (pos, l2) => some (neg, pos, l2)

/-- The displacements of a mode in units of its spacing, `displacements_nm` without the factor
`fnmrms nmrms` (L919-926). -/
def disp (neg pos : ℕ) : List ℤ :=
  (List.range (neg + pos + 1 + 4)).map fun i : ℕ => -(neg : ℤ) + (i : ℤ) - 2

/-- The map of one mode. -/
structure Map1 where
  neg : ℕ
  pos : ℕ
  v : List ℝ

/-- What the steps over single modes leave: the displacements, one entry for every mode, those of the
ignored modes filled with `[0]` first (L843-844), and the samples, one entry for every mode considered. -/
def dispList (d : ℕ) (ms : List Map1) : List (List ℤ) :=
  List.replicate (d - ms.length) [0] ++ ms.map fun m => disp m.neg m.pos

/-- The entry of the table of a pair of modes at `(i, j)` (L1118-1134): `mi`, `mj` are the numbers of
points of the two modes, `VI`, `VJ` what `v_indep_list` holds at `inm - nz` and `jnm - nz`, `P2` the
potential displaced along both. -/
noncomputable def pairEntry (mi mj : Map1) (VI VJ : List ℝ) (P2 : ℤ → ℤ → ℝ) (i j : ℕ) :
    Except Err ℝ :=
  if -(mi.neg : ℤ) + i - 2 = 0 then
    match VJ[j]? with
    | some x => .ok x
    | none => .error .indexError
  else if -(mj.neg : ℤ) + j - 2 = 0 then
    match VI[i]? with
    | some x => .ok x
    | none => .error .indexError
  else .ok (P2 (-(mi.neg : ℤ) + i - 2) (-(mj.neg : ℤ) + j - 2))

/-- The samples taken for mode `m` in the step of a pair, `v_indep_list[m - nz]` (L1049, L1122-1124). -/
def indepOf (nz : ℕ) (ms : List Map1) (m : ℕ) : Except Err (List ℝ) :=
  match ms[m - nz]? with
  | some x => .ok x.v
  | none => .error .indexError

/-- The displacements taken for mode `m`, `displacements_nm[m]` (L1100-1101). -/
def dispOf (d : ℕ) (ms : List Map1) (m : ℕ) : Except Err (List ℤ) :=
  match (dispList d ms)[m]? with
  | some x => .ok x
  | none => .error .indexError

/-! ## Files of the coupling potentials -/

/-- The coupling of a pair on the grids, as it is computed (L1203-1208): `f` is the interpolated
potential, `scipy` returns the second coordinate as the row. -/
def vij {G : ℕ} (f : ℝ → ℝ → ℝ) (gi gj : Fin G → ℝ) : Matrix (Fin G) (Fin G) ℝ := fun b a =>
  f (gi a) (gj b) - f (gi a) 0 - f 0 (gj b) + f 0 0

/-- The files of coupling potentials, by pair of modes. -/
abbrev Files (α : Type) := ℕ → ℕ → Option α

/-- Writing a file. -/
def put {α : Type} (F : Files α) (i j : ℕ) (x : α) : Files α := fun a b =>
  if a = i ∧ b = j then some x else F a b

/-- The step of one pair as far as its two files go (L1082-1085, L1210-1241): nothing is done when the first
exists; otherwise the first and then the second, transposed, are written. `left` is the number of files
that are still written before the program is stopped. -/
def pairStep {G : ℕ} (C : ℕ → ℕ → Matrix (Fin G) (Fin G) ℝ)
    (s : Files (Matrix (Fin G) (Fin G) ℝ) × ℕ) (p : ℕ × ℕ) :
    Files (Matrix (Fin G) (Fin G) ℝ) × ℕ :=
  if (s.1 p.1 p.2).isSome then s
  else match s.2 with
    | 0 => s
    | 1 => (put s.1 p.1 p.2 (C p.1 p.2), 0)
    | k + 2 => (put (put s.1 p.1 p.2 (C p.1 p.2)) p.2 p.1 (C p.1 p.2)ᵀ, k)

/-- A run over the pairs, stopped after `left` files. -/
def pairRun {G : ℕ} (C : ℕ → ℕ → Matrix (Fin G) (Fin G) ℝ) (ps : List (ℕ × ℕ))
    (F : Files (Matrix (Fin G) (Fin G) ℝ)) (left : ℕ) : Files (Matrix (Fin G) (Fin G) ℝ) :=
  (ps.foldl (pairStep C) (F, left)).1

/-- The potential of mode `j` as seen by mode `i` that the solver loads, `vc[jnm]` (L1264-1277): zero
for the mode itself, otherwise the transpose of the file. -/
def vc {G : ℕ} (F : Files (Matrix (Fin G) (Fin G) ℝ)) (i j : ℕ) :
    Except Err (Matrix (Fin G) (Fin G) ℝ) :=
  if i = j then .ok 0
  else match F i j with
    | some x => .ok xᵀ
    | none => .error .noFile

/-- What the solver loads for the mode `i` (the inner loop L1265-1277); the first file that is missing
stops it. -/
def vcs {G : ℕ} (F : Files (Matrix (Fin G) (Fin G) ℝ)) (i : ℕ) (js : List ℕ) :
    Except Err (List (Matrix (Fin G) (Fin G) ℝ)) := js.mapM (vc F i)

/-! ## Self-consistency -/

/-- The contribution of one state to the thermal density (L1343-1353): the state is added with its
weight and the density is divided by its sum. -/
noncomputable def rhoAdd {G : ℕ} (r : Fin G → ℝ) (s : ℝ × (Fin G → ℝ)) : Fin G → ℝ := fun g =>
  (r g + s.1 * s.2 g) / ∑ k, (r k + s.1 * s.2 k)

/-- The thermal density of a mode (L1341-1353) from the weights and the densities of the states. -/
noncomputable def rho {G : ℕ} (l : List (ℝ × (Fin G → ℝ))) : Fin G → ℝ := l.foldl rhoAdd 0

/-- The new mean field (L1358-1366): `vI` is the potential of the mode alone, `C` the sum of the
couplings weighted with the densities of the other modes, `v` the mean field so far. -/
noncomputable def mix (α vI C v : ℝ) : ℝ := vI + (1 - α) * v + α * C

/-- What the loop of the solver gives: the number of iterations, the free energy reported, the state
whose levels are saved. -/
structure ScfResult (σ : Type) where
  iter : ℕ
  a : ℝ
  st : σ

open Classical in
/-- The loop of `VSCF.solver` (L1316-1412): `F` makes one iteration, `A` is the free energy of a
state (`ai.sum()`), `n` the number of modes. -/
noncomputable def scf {σ : Type} (F : σ → σ) (A : σ → ℝ) (n thr : ℝ) :
    ℕ → ℕ → ℝ → σ → Option (ScfResult σ)
  | 0, _, _, _ => none
  | fuel + 1, it, old, s =>
    if |A s - old| / n < thr ∧ 4 < it + 1 then some ⟨it + 1, A s, F s⟩
    else scf F A n thr fuel (it + 1) (A s) (F s)

end Verif.Vscf
