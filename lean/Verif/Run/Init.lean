import Verif.Phys.Contract
import Verif.Phys.Cell

/-!
# The initialisation of a system

Model of the `<initialize>` block: how the input layer turns its tags into a queue of
instructions (`/repo/ipi/inputs/initializer.py`) and how the queue fills the system
(`/repo/ipi/engine/initializer.py`).

Arrays are functions on natural numbers with their sizes kept beside them: the entry `q i c` is
coordinate `c` of bead `i`, and has a meaning for `i < nb` and `c < 3 * na` only.  Numbers are
real numbers.  Files are not parsed here: `Env` says what reading each of them returns.
-/

namespace Verif.Init

open Verif.Cell

/-- The exceptions: `value` for `ValueError` (also the ones raised by numpy when shapes do not
agree, and the division by zero beads), `type` for `TypeError`, `index` for `IndexError`, `name` for `UnboundLocalError`. -/
inductive Err where
  | value | type | index | name
  deriving DecidableEq, Repr

/-- A `Beads` object (`/repo/ipi/engine/beads.py` L58-150): sizes, positions, momenta, masses
and labels. -/
structure Beads where
  nb : ℕ
  na : ℕ
  q : ℕ → ℕ → ℝ
  p : ℕ → ℕ → ℝ
  m : ℕ → ℝ
  names : ℕ → String

/-- `Beads.resize` (`beads.py` L71-118): all the arrays are created anew, full of zeros and of
empty labels. -/
def Beads.zeros (na nb : ℕ) : Beads :=
  ⟨nb, na, fun _ _ => 0, fun _ _ => 0, fun _ => 0, fun _ => ""⟩

/-- One frame of a file, as an `Atoms` object with its coordinates, masses and labels. -/
structure Frame where
  na : ℕ
  x : ℕ → ℝ
  m : ℕ → ℝ
  names : ℕ → String

/-- What the outside world answers.  `file mode name dimension units cell_units` is the list of
the frames read until the end of the file and the cell of the last one (`read_file`); `chk` is
the first system of a checkpoint (`init_chk`, `engine/initializer.py` L144-175); `conv` is
`unit_to_internal(family, units, 1.0)`. -/
structure Env where
  file : String → String → String → String → String → Except Err (List Frame × Mat)
  chk : String → Except Err (Beads × Mat)
  conv : String → String → Except Err ℝ

/-- The value of an instruction: a string, a number, an array of numbers or a list of strings
(`InputInitBase.getval`, `inputs/initializer.py` L88-107). -/
inductive Value where
  | text (s : String)
  | num (x : ℝ)
  | nums (l : List ℝ)
  | strs (l : List String)

/-- `InitIndexed` (`engine/initializer.py` L59-83). -/
structure Instr where
  value : Value
  mode : String
  units : String
  index : ℤ
  bead : ℤ

/-- The name used by `open`: only a string is the name of a file. -/
def Instr.name (v : Instr) : Except Err String :=
  match v.value with
  | .text s => .ok s
  | _ => .error .type

/-- The elements of a one-dimensional array from position `k` on. -/
def nth (l : List ℝ) (k : ℕ) : ℝ := l.getD k 0

/-- The branch for files of `init_beads` (L198-203) with `rbeads[i] = ratoms[i]`
(`beads.py` L331-346): frames with another number of atoms do not fit, masses and labels are
shared by the beads so that the ones of the last frame stay, and the momenta of the frames are
zero.  A file without frames leaves `ret` undefined (L141). -/
def beadsOfFrames (fr : List Frame) : Except Err Beads :=
  match fr with
  | [] => .error .name
  | f :: _ =>
    if fr.all (fun g => g.na == f.na) then
      let l := fr.getLast?.getD f
      .ok ⟨fr.length, f.na, fun i c => ((fr[i]?.map Frame.x).getD fun _ => 0) c, fun _ _ => 0, l.m,
        l.names⟩
    else .error .value

/-- `init_beads` (L178-205). -/
def initBeads (e : Env) (v : Instr) (dimension units cellUnits : String) : Except Err Beads := do
  if v.mode = "chk" then
    let r ← e.chk (← v.name)
    return r.1
  else if v.mode = "manual" then throw .value
  else
    let r ← e.file v.mode (← v.name) dimension units cellUnits
    beadsOfFrames r.1

/-- A two-dimensional array with its number of rows; every row has `3 * na` columns. -/
structure Vec2 where
  nb : ℕ
  na : ℕ
  x : ℕ → ℕ → ℝ

/-- `init_vector` (L208-247).  For `manual` the numbers are reshaped into one row per bead, or
into a single row if a bead is selected; the `units` are used by the branches for files only. -/
def initVector (e : Env) (nbeads : ℕ) (v : Instr) (momenta : Bool) (dimension units : String) :
    Except Err Vec2 := do
  if v.mode = "xyz" ∨ v.mode = "pdb" ∨ v.mode = "ase" then
    let r ← initBeads e v dimension units "automatic"
    return ⟨r.nb, r.na, r.q⟩
  else if v.mode = "chk" then
    let r ← initBeads e v "length" "automatic" "automatic"
    return ⟨r.nb, r.na, if momenta then r.p else r.q⟩
  else if v.mode = "manual" then
    match v.value with
    | .nums l =>
      let nb := if 0 ≤ v.bead then 1 else nbeads
      if nb = 0 then throw .value
      let na := l.length / (nb * 3)
      if l.length = nb * (3 * na) then return ⟨nb, na, fun i c => nth l (i * (3 * na) + c)⟩
      else throw .value
    | _ => throw .type
  else throw .name

/-- `nm_rescale(nb, nb').b1tob2` without open paths, for arrays with their sizes kept apart. -/
noncomputable def rescale (nb nb' na : ℕ) (x : ℕ → ℕ → ℝ) : ℕ → ℕ → ℝ := fun i c =>
  if h : i < nb' ∧ c < 3 * na then
    Contract.b1tob2 nb' [] (fun (a : Fin nb) (d : Fin (3 * na)) => x a d) ⟨i, h.1⟩ ⟨c, h.2⟩
  else 0

/-- `set_vector` (L250-297): `dq` has `nb` rows of `3 * na` columns.  The assignments fail where
numpy cannot broadcast: a single atom needs a vector of one atom, a single bead a vector of one
row. -/
noncomputable def setVector (v : Instr) (nb na : ℕ) (dq : ℕ → ℕ → ℝ) (r : Vec2) :
    Except Err (ℕ → ℕ → ℝ) :=
  if v.index < 0 ∧ r.na ≠ na then .error .value
  else if (na : ℤ) ≤ v.index then .error .value
  else if (nb : ℤ) ≤ v.bead then .error .value
  else if v.bead < 0 then
    if v.index < 0 then .ok (rescale r.nb nb r.na r.x)
    else if r.na = 1 then
      .ok fun i c => if c / 3 = v.index.toNat then rescale r.nb nb r.na r.x i (c % 3) else dq i c
    else .error .value
  else if r.nb = 1 then
    if v.index < 0 then .ok fun i c => if i = v.bead.toNat then r.x 0 c else dq i c
    else if r.na = 1 then
      .ok fun i c =>
        if i = v.bead.toNat ∧ c / 3 = v.index.toNat then r.x 0 (c % 3) else dq i c
    else .error .value
  else .error .value

/-- The state of the system while the queue is worked through, with the two flags that have an
effect (L364-369; `fpos`, `flab` and `fcell` only choose warnings) and the number of times the
generator was used. -/
structure Sim where
  beads : Beads
  h : Mat
  fmom : Bool
  fmass : Bool
  draws : ℕ

/-- What the initialisation needs besides the queue: `nbeads` of the block, the temperature of
the ensemble, Boltzmann's constant, `nm_factor` of the normal modes (the ratio of the dynamical
to the physical mass of each mode) and the arrays returned by `prng.gvec`. -/
structure Ctx where
  env : Env
  nbeads : ℕ
  temp : ℝ
  kB : ℝ
  factor : ℕ → ℝ
  gauss : ℕ → ℕ → ℕ → ℝ

/-- The flags at the start (L364-369). -/
def start (b : Beads) (h : Mat) : Sim :=
  if b.nb = 0 then ⟨b, h, false, false, 0⟩ else ⟨b, h, true, true, 0⟩

/-- The branch `cell` (L377-401).  A zero volume creates an exception without raising it. -/
noncomputable def doCell (x : Ctx) (v : Instr) (s : Sim) : Except Err Sim := do
  if v.mode = "manual" then
    let u ← x.env.conv "length" v.units
    match v.value with
    | .nums l =>
      if l.length = 9 then
        return { s with h := fun i j => nth l (3 * (i : ℕ) + j) * u }
      else throw .value
    | _ => throw .type
  else if v.mode = "chk" then
    let r ← x.env.chk (← v.name)
    return { s with h := r.2 }
  else
    let r ← x.env.file v.mode (← v.name) "length" "automatic" "automatic"
    if r.1 = [] then throw .name
    if r.2 0 0 + r.2 1 1 + r.2 2 2 = -3 then return s
    else
      let r ← x.env.file v.mode (← v.name) "length" "automatic" v.units
      return { s with h := r.2 }

/-- `beads.m = rm` or `beads.m[index:index+1] = rm` for an array of `k` elements, and the same
for the labels (L426-429, L451-454): numpy repeats an array of one element, and the slice is
empty when the index is too large. -/
def setAtoms {α : Type} (index : ℤ) (na : ℕ) (old : ℕ → α) (k : ℕ) (new : ℕ → α) :
    Except Err (ℕ → α) :=
  if index < 0 then
    if k = na then .ok new
    else if k = 1 then .ok fun _ => new 0
    else .error .value
  else
    let len := if index.toNat < na then 1 else 0
    if k = 1 then .ok fun a => if a = index.toNat ∧ a < na then new 0 else old a
    else if k = len then .ok old
    else .error .value

/-- The masses that are read, with their number (L410-413). -/
noncomputable def massesOf (x : Ctx) (v : Instr) : Except Err (ℕ × (ℕ → ℝ)) := do
  if v.mode = "manual" then
    let u ← x.env.conv "mass" v.units
    match v.value with
    | .nums l => return (l.length, fun a => nth l a * u)
    | .num y => return (1, fun _ => y * u)
    | _ => throw .type
  else
    let r ← initBeads x.env v "length" "automatic" "automatic"
    return (r.na, r.m)

/-- The branch `masses` (L402-435). -/
noncomputable def doMasses (x : Ctx) (v : Instr) (s : Sim) : Except Err Sim := do
  if s.beads.nb = 0 then throw .value
  let r ← massesOf x v
  if 0 ≤ v.bead then throw .value
  let m' ← setAtoms v.index s.beads.na s.beads.m r.1 r.2
  let p' : ℕ → ℕ → ℝ :=
    if s.fmom && s.fmass then fun i c => s.beads.p i c / √(s.beads.m (c / 3)) * √(m' (c / 3))
    else s.beads.p
  return { s with beads := { s.beads with m := m', p := p' }, fmass := true }

/-- A label is stored in an array of at most six characters (`beads.py` L91-93). -/
def clip (s : String) : String := String.ofList (s.toList.take 6)

/-- The labels that are read, with their number (L444-447). -/
def labelsOf (x : Ctx) (v : Instr) : Except Err (ℕ × (ℕ → String)) := do
  if v.mode = "manual" then
    match v.value with
    | .strs l => return (l.length, fun a => clip (l.getD a ""))
    | .text t => return (1, fun _ => clip t)
    | _ => throw .type
  else
    let r ← initBeads x.env v "length" "automatic" "automatic"
    return (r.na, r.names)

/-- The branch `labels` (L437-457). -/
def doLabels (x : Ctx) (v : Instr) (s : Sim) : Except Err Sim := do
  if s.beads.nb = 0 then throw .value
  let r ← labelsOf x v
  if 0 ≤ v.bead then throw .value
  let n' ← setAtoms v.index s.beads.na s.beads.names r.1 r.2
  return { s with beads := { s.beads with names := n' } }

/-- The size of the system when it is not known yet (L467-474 and L551-558). -/
def sized (x : Ctx) (v : Instr) (na : ℕ) (b : Beads) : Except Err Beads :=
  if b.nb = 0 then
    if 0 ≤ v.index then .error .value else .ok (Beads.zeros na x.nbeads)
  else .ok b

/-- The branch `positions` (L459-477). -/
noncomputable def doPositions (x : Ctx) (v : Instr) (s : Sim) : Except Err Sim := do
  let r ← initVector x.env x.nbeads v false "length" v.units
  let b ← sized x v r.na s.beads
  let q ← setVector v b.nb b.na b.q r
  return { s with beads := { b with q := q } }

/-- The momenta made from normal mode momenta: `rnm.pnm = …` followed by reading `rbeads.p`
(L527-536); the mock normal modes have no open paths. -/
noncomputable def ofModes (nb na : ℕ) (pnm : ℕ → ℕ → ℝ) : ℕ → ℕ → ℝ := fun i c =>
  if h : i < nb ∧ c < 3 * na then
    Nm.nm2b [] (fun (a : Fin nb) (d : Fin (3 * na)) => pnm a d) ⟨i, h.1⟩ ⟨c, h.2⟩
  else 0

/-- The temperature of thermal momenta (L494-500): a temperature that is not positive stands for
the one of the ensemble. -/
noncomputable def thermalTemp (x : Ctx) (v : Instr) : Except Err ℝ := do
  let u ← x.env.conv "temperature" v.units
  match v.value with
  | .num y => return if y * u ≤ 0 then x.temp else y * u
  | _ => throw .type

/-- The branch of the thermal momenta (L479-542).  `dynm3` is the mass of the atom times the
factor of the mode. -/
noncomputable def doThermal (x : Ctx) (v : Instr) (s : Sim) : Except Err Sim := do
  if s.beads.na = 0 then throw .value
  if !s.fmass then throw .value
  let rtemp ← thermalTemp x v
  if 0 ≤ v.bead then throw .value
  let g := x.gauss s.draws
  if 0 ≤ v.index then
    if s.beads.na ≤ v.index.toNat then throw .index
    let pnm : ℕ → ℕ → ℝ := fun k c =>
      g k c * √(s.beads.m v.index.toNat * x.factor k) * √(s.beads.nb * rtemp * x.kB)
    let r := ofModes s.beads.nb 1 pnm
    return { s with
      beads := { s.beads with
        p := fun i c => if c / 3 = v.index.toNat then r i (c % 3) else s.beads.p i c }
      fmom := true, draws := s.draws + 1 }
  else
    let pnm : ℕ → ℕ → ℝ := fun k c =>
      g k c * √(s.beads.m (c / 3) * x.factor k) * √(s.beads.nb * rtemp * x.kB)
    return { s with
      beads := { s.beads with p := ofModes s.beads.nb s.beads.na pnm }
      fmom := true, draws := s.draws + 1 }

/-- The branch `momenta` (L544-563). -/
noncomputable def doMomenta (x : Ctx) (v : Instr) (s : Sim) : Except Err Sim := do
  let r ← initVector x.env x.nbeads v true "momentum" v.units
  let b ← sized x v r.na s.beads
  let f := √((x.nbeads : ℝ) / r.nb)
  let p ← setVector v b.nb b.na b.p { r with x := fun i c => r.x i c * f }
  return { s with beads := { b with p := p }, fmom := true }

/-- The branch `velocities` (L564-593).  When the masses are not known a `ValueError` is created
but not raised, and the system is resized, which clears it. -/
noncomputable def doVelocities (x : Ctx) (v : Instr) (s : Sim) : Except Err Sim := do
  let r ← initVector x.env x.nbeads v false "velocity" v.units
  let b := if s.beads.nb = 0 ∨ s.fmass = false then Beads.zeros r.na x.nbeads else s.beads
  let f := √((x.nbeads : ℝ) / r.nb)
  if 0 ≤ v.index then
    if b.na ≤ v.index.toNat then throw .index
    let p ← setVector v b.nb b.na b.p
      { r with x := fun i c => r.x i c * b.m v.index.toNat * f }
    return { s with beads := { b with p := p }, fmom := true }
  else
    if b.nb = 0 then throw .index
    if b.na ≠ r.na then throw .value
    let p ← setVector v b.nb b.na b.p { r with x := fun i c => r.x i c * b.m (c / 3) * f }
    return { s with beads := { b with p := p }, fmom := true }

/-- The tags of the queue. -/
inductive Key where
  | cell | masses | labels | positions | velocities | momenta | gle
  deriving DecidableEq, Repr

/-- One round of the loop of `init_stage1` (L371-596). -/
noncomputable def step (x : Ctx) (s : Sim) : Key × Instr → Except Err Sim
  | (.cell, v) => doCell x v s
  | (.masses, v) => doMasses x v s
  | (.labels, v) => doLabels x v s
  | (.positions, v) => doPositions x v s
  | (.velocities, v) => if v.mode = "thermal" then doThermal x v s else doVelocities x v s
  | (.momenta, v) => if v.mode = "thermal" then doThermal x v s else doMomenta x v s
  | (.gle, _) => .ok s

/-- The loop over the queue (L371-596). -/
noncomputable def steps (x : Ctx) (l : List (Key × Instr)) (s : Sim) : Except Err Sim :=
  l.foldlM (step x) s

/-- The checks at the end of `init_stage1` (L598-606). -/
noncomputable def checked (s : Sim) : Except Err Sim := open Classical in
  if s.beads.na = 0 then .error .value
  else if detUt s.h = 0 then .error .value
  else if ∃ a < s.beads.na, s.beads.m a ≤ 0 ∨ s.beads.names a = "" then .error .value
  else .ok s

/-- `Initializer.init_stage1` (L346-611). -/
noncomputable def stage1 (x : Ctx) (l : List (Key × Instr)) (b : Beads) (h : Mat) :
    Except Err Sim := do
  let s ← steps x l (start b h)
  checked s

/-- `Initializer.init_stage2` (L613-…): the state of the thermostat is looked for in
`simul.ensemble`, and `Ensemble` (`/repo/ipi/engine/ensembles.py`) has no such attribute, so that
an instruction `gle` always raises. -/
def stage2 (l : List (Key × Instr)) : Except Err Unit :=
  if l.any (fun k => k.1 == Key.gle) then .error .value else .ok ()

/-! ## The input layer -/

/-- The tags of the `<initialize>` block (`inputs/initializer.py` L391-436). -/
inductive Tag where
  | file | key (k : Key)
  deriving DecidableEq, Repr

/-- One tag with its attributes.  `raw` is the text, read as numbers or strings for `manual`
(`getval`, L88-107). -/
structure Elem where
  tag : Tag
  mode : String
  units : String
  cellUnits : String
  index : ℤ
  bead : ℤ
  raw : Value

/-- The options accepted for the attribute `mode` (L160, L194, L209, L224, L275). -/
def modes : Tag → List String
  | .file => ["xyz", "pdb", "chk", "ase"]
  | .key .gle => ["chk", "manual"]
  | .key .cell => ["manual", "pdb", "chk", "abc", "abcABC"]
  | .key .momenta | .key .velocities => ["manual", "xyz", "pdb", "ase", "chk", "thermal"]
  | .key _ => ["manual", "xyz", "pdb", "ase", "chk"]

/-- `InputInitIndexed.fetch` with the given class (L109-124). -/
def Elem.indexed (v : Elem) : Instr := ⟨v.raw, v.mode, v.units, v.index, v.bead⟩

/-- `InputInitCell.fetch` (L285-354): the sides and angles are turned into a matrix by `abc2h`
(here a function of the text), and the elements below the diagonal are set to zero. -/
def cellInstr (abc2h : Value → Except Err (List ℝ)) (v : Elem) : Except Err Instr := do
  if v.mode = "abc" ∨ v.mode = "abcABC" then
    let l ← abc2h v.raw
    return ⟨.nums l, "manual", v.units, -1, -1⟩
  else if v.mode = "manual" then
    match v.raw with
    | .nums l =>
      if l.length = 9 then
        return ⟨.nums (l.mapIdx fun i y => if i = 3 ∨ i = 6 ∨ i = 7 then 0 else y), "manual",
          v.units, -1, -1⟩
      else throw .value
    | _ => throw .type
  else return ⟨v.raw, v.mode, v.units, -1, -1⟩

/-- `InputInitializer.fetch` for one tag (L486-523).  For `mode='chk'` it calls `v.fetch` with
an argument that the `fetch` of the momenta, of the velocities and of the cell does not
take (L239, L285).  The tag `file` stands for positions, masses, labels and cell, and for a
checkpoint also momenta. -/
def expand (abc2h : Value → Except Err (List ℝ)) (v : Elem) :
    Except Err (List (Key × Instr)) := do
  if v.mode ∉ modes v.tag then throw .value
  if v.mode = "chk" then
    if v.tag = .key .momenta ∨ v.tag = .key .velocities ∨ v.tag = .key .cell then throw .type
    if v.units ≠ "" ∧ v.units ≠ "automatic" then throw .value
  match v.tag with
  | .file =>
    let i : Instr := { v.indexed with index := -1 }
    return [(.positions, i), (.masses, { i with units := "" }), (.labels, i),
      (.cell, { i with units := v.cellUnits })] ++
      (if v.mode = "chk" then [(.momenta, { i with units := "" })] else [])
  | .key .cell => return [(.cell, ← cellInstr abc2h v)]
  | .key k => return [(k, v.indexed)]

/-- The whole block: the input is read, the queue is worked through and the thermostat is
restored when the system is bound (`engine/simulation.py` L196, `engine/system.py` L114). -/
noncomputable def block (abc2h : Value → Except Err (List ℝ)) (x : Ctx) (l : List Elem)
    (b : Beads) (h : Mat) : Except Err Sim := do
  let q := (← l.mapM (expand abc2h)).flatten
  let s ← stage1 x q b h
  stage2 q
  return s

end Verif.Init
