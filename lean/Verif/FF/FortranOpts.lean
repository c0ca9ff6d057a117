import Mathlib.Data.Real.Basic

/-!
# The command line of the Fortran driver

Model of the first part of the program in `/repo/drivers/f90/driver.f90` (L119-535).  Arguments are compared without trailing
blanks and cut after 1024 characters, which is left out.  How Fortran reads a number is a parameter; `none` stands for the run time
error.  Constants without `d0` are rounded to single precision, which is left out.
-/

namespace Verif.F90.Opts

/-- How the program ends: with the help text (L170-174, L278-280), an unknown potential (L250-254), a number that cannot be read,
a write outside of an array, or a message about the parameters. -/
inductive Err where
  | usage | potential | number | memory | parameters | deprecated
deriving DecidableEq

/-- What the command line sets (L121-132, and the defaults of L110-113).  `vpars` has the indices of the program, `none` stands for a
number that was never set. -/
structure Conf where
  inet : Bool := true
  shm : Bool := false
  mpi : Bool := false
  host : String := "localhost"
  port : ℤ := 31415
  verbose : ℕ := 0
  sockPrefix : String := "/tmp/ipi_"
  group : ℤ := 1
  ffName : String := ""
  ffId : ℤ := 0
  vstyle : Option ℕ := none
  parCount : ℕ := 0
  vpars : ℕ → Option ℝ := fun _ => none

/-- Numbers as Fortran reads them. -/
structure Reader where
  real : List Char → Option ℝ
  int : String → Option ℤ

/-- The names of the potentials (L184-249). -/
def styles : List (String × ℕ) :=
  [("lj", 1), ("sg", 2), ("harm", 3), ("harm3d", 40), ("morse", 4), ("zundel", 5), ("qtip4pf", 6), ("linear", 7), ("pswater", 8),
    ("lepsm1", 9), ("lepsm2", 10), ("qtip4pf-efield", 11), ("eckart", 20), ("ch4hcbe", 21), ("ljpolymer", 22), ("MB", 23),
    ("doublewell", 25), ("doublewell_1D", 24), ("morsedia", 26), ("qtip4pf-sr", 27), ("harmonic_bath", 28), ("meanfield_bath", 29),
    ("water_dip_pol", 31), ("ljmix", 32), ("qtip4pf-c-1", 60), ("qtip4pf-c-2", 61), ("qtip4pf-c-json", 62), ("qtip4pf-c-1-delta", 63),
    ("qtip4pf-c-2-delta", 64), ("qtip4pf-c-json-delta", 65), ("noo3-h2o", 70), ("gas", 0), ("dummy", 99), ("batch-dummy", 100)]

/-- `index(text, ',')` with the text before and after the comma. -/
def nextComma : List Char → Option (List Char × List Char)
  | [] => none
  | c :: cs => if c = ',' then some ([], cs) else (nextComma cs).map fun x => (c :: x.1, x.2)

theorem nextComma_length : ∀ (l : List Char) (x : List Char × List Char), nextComma l = some x → x.2.length < l.length
  | [], x, h => by cases h
  | c :: cs, x, h => by
    rw [nextComma] at h
    split at h
    · cases h; simp
    · obtain ⟨y, hy, e⟩ := Option.map_eq_some_iff.1 h
      have := nextComma_length cs y hy
      subst e
      simp only [List.length_cons]
      omega

/-- The loop over the commas (L258-263).  `commas` has four elements (L72). -/
def parsLoop (r : Reader) (n : ℕ) (text : List Char) (vp : ℕ → Option ℝ) : Except Err (ℕ × (ℕ → Option ℝ)) :=
  match h : nextComma text with
  | some (field, rest) =>
    if 4 < n + 1 then .error .memory
    else match r.real field with
      | none => .error .number
      | some x => parsLoop r (n + 1) rest (Function.update vp n (some x))
  | none =>
    match r.real text with
    | none => .error .number
    | some x => .ok (n, Function.update vp n (some x))
termination_by text.length
decreasing_by exact nextComma_length _ _ h

/-- The flags, with what the next argument means (`ccmd`, L136-167). -/
def flag (c : Conf) (ccmd : ℕ) : String → Option (Conf × ℕ)
  | "-u" => some ({ c with inet := false }, 0)
  | "--shm" => some ({ c with shm := true, inet := false }, 0)
  | "-h" => some (c, 1)
  | "-a" => some (c, 1)
  | "-p" => some (c, 2)
  | "-m" => some (c, 3)
  | "-o" => some (c, 4)
  | "-S" => some (c, 5)
  | "-v" => some ({ c with verbose := 1 }, ccmd)
  | "-vv" => some ({ c with verbose := 2 }, ccmd)
  | "--mpi" => some ({ c with mpi := true }, 0)
  | "-g" => some (c, 6)
  | "--mpi-name" => some (c, 7)
  | "--mpi-id" => some (c, 8)
  | _ => none

/-- An argument that is not a flag (L168-273). -/
def value (r : Reader) (c : Conf) (ccmd : ℕ) (a : String) : Except Err Conf :=
  match ccmd with
  | 0 => .error .usage
  | 1 => .ok { c with host := a }
  | 2 => match r.int a with
    | none => .error .number
    | some n => .ok { c with port := n }
  | 3 => match styles.lookup a with
    | none => .error .potential
    | some v => .ok { c with vstyle := some v }
  | 4 => match parsLoop r 1 a.toList c.vpars with
    | .error e => .error e
    | .ok (n, vp) => .ok { c with parCount := n, vpars := vp }
  | 5 => .ok { c with sockPrefix := a }
  | 6 => match r.int a with
    | none => .error .number
    | some n => .ok { c with group := n }
  | 7 => .ok { c with ffName := a }
  | 8 => match r.int a with
    | none => .error .number
    | some n => .ok { c with ffId := n }
  | _ => .ok c

/-- The loop over the arguments (L134-274). -/
def parse (r : Reader) : Conf → ℕ → List String → Except Err Conf
  | c, _, [] => .ok c
  | c, ccmd, a :: args =>
    match flag c ccmd a with
    | some (c, ccmd) => parse r c ccmd args
    | none => match value r c ccmd a with
      | .error e => .error e
      | .ok c => parse r c 0 args

/-- Three parameters at once. -/
def set3 (vp : ℕ → Option ℝ) (a b c : ℝ) : ℕ → Option ℝ :=
  Function.update (Function.update (Function.update vp 1 (some a)) 2 (some b)) 3 (some c)

/-- The check of the number of parameters (L276-535): whether the driver is initialised, and the parameters.  For `water_dip_pol` and
wrong parameters the program prints an error and goes on.  The derived constants (`rn`, `stiffness`) are left out. -/
noncomputable def check (vstyle : Option ℕ) (n : ℕ) (vp : ℕ → Option ℝ) : Except Err (Bool × (ℕ → Option ℝ)) :=
  match vstyle with
  | none => .error .usage
  | some 0 => if n ≤ 1 then .ok (true, vp) else .error .parameters
  | some 99 => if n ≤ 1 then .ok (true, vp) else .error .parameters
  | some 100 => if n ≤ 1 then .ok (false, vp) else .error .parameters
  | some 6 => if n ≠ 0 then .error .parameters else .ok (true, vp)
  | some 27 => if n ≠ 0 then .error .parameters else .ok (true, vp)
  | some 11 => if n ≠ 3 then .error .parameters else .ok (true, vp)
  | some 5 => if n ≠ 0 then .error .parameters else .ok (true, vp)
  | some 21 => if n ≠ 0 then .error .parameters else .ok (true, vp)
  | some 4 =>
    if n = 0 then .ok (true, set3 vp 1.8323926 0.18748511263179304 1.1562696428501682)
    else if 2 ≠ n then .error .parameters else .ok (true, vp)
  | some 20 =>
    if n = 0 then .ok (true, Function.update
      (set3 vp 0 0.66047 (6 * 12 / (1836 * 0.66047 ^ 2 * 3.14159265358979323846 ^ 2))) 4 (some (1836 * (3800 / 219323) ^ 2)))
    else if 4 ≠ n then .error .parameters else .ok (true, vp)
  | some 23 =>
    if n = 0 then .ok (true, Function.update vp 1 (some 0.004737803248674678))
    else if 1 ≠ n then .error .parameters else .ok (true, vp)
  | some 28 => .error .deprecated
  | some 29 => .error .deprecated
  | some 22 => if 4 ≠ n then .error .parameters else .ok (true, vp)
  | some 32 => if 4 ≠ n then .error .parameters else .ok (true, vp)
  | some 8 => if n ≠ 0 then .error .parameters else .ok (false, vp)
  | some 9 => if n ≠ 0 then .error .parameters else .ok (false, vp)
  | some 10 => if n ≠ 0 then .error .parameters else .ok (true, vp)
  | some 1 => if n ≠ 3 then .error .parameters else .ok (true, vp)
  | some 2 => if n ≠ 1 then .error .parameters else .ok (true, vp)
  | some 3 => if n ≠ 1 then .error .parameters else .ok (true, vp)
  | some 40 => if n ≠ 1 then .error .parameters else .ok (true, vp)
  | some 7 => if n ≠ 1 then .error .parameters else .ok (true, vp)
  | some 25 => if n ≠ 0 then .error .parameters else .ok (true, vp)
  | some 24 => if n ≠ 0 then .error .parameters else .ok (true, vp)
  | some 26 =>
    if n = 0 then .ok (false, set3 vp 1.8323926 0.18748511263179304 1.1562696428501682)
    else if 2 ≠ n then .error .parameters else .ok (false, vp)
  | some 31 =>
    if n = 0 then .ok (true, Function.update vp 1 (some 1))
    else if n ≠ 1 ∨ (vp 1 ≠ some 0 ∧ vp 1 ≠ some 1) then .ok (true, Function.update vp 1 (some 1))
    else .ok (true, vp)
  | some _ => .ok (false, vp)

/-- The program until the driver connects. -/
noncomputable def start (r : Reader) (args : List String) : Except Err (Conf × Bool) :=
  match parse r {} 0 args with
  | .error e => .error e
  | .ok c => match check c.vstyle c.parCount c.vpars with
    | .error e => .error e
    | .ok (i, vp) => .ok ({ c with vpars := vp }, i)

/-- The answer to `STATUS` before the first structure (L562, L573-585). -/
def needsInit (c : Conf) (isinit : Bool) : Bool := if c.shm then true else !isinit

/-- The routine that `compute_potential` calls for a structure of `nat` atoms (L780-1178); `none` when it stops with a message about the
number of atoms.  Formulas without a routine have the name of the potential in the comment. -/
def dispatch (v nat : ℕ) : Option String :=
  if v = 0 ∨ v = 100 then some "ideal gas"
  else if v = 99 then some "dummy output"
  else if v = 3 then some "1D harmonic"
  else if v = 40 then some "3D harmonic"
  else if v = 7 then some "linear"
  else if v = 4 then if nat ≠ 1 then none else some "getmorse"
  else if v = 26 then if nat ≠ 2 then none else some "getmorsedia"
  else if v = 5 then if nat ≠ 7 then none else some "zundelpot"
  else if v = 21 then if nat ≠ 6 then none else some "ch4hpot_inter"
  else if v = 6 then if nat % 3 ≠ 0 then none else some "qtip4pf"
  else if v = 27 then if nat % 3 ≠ 0 then none else some "qtip4pf_sr"
  else if 60 ≤ v ∧ v ≤ 65 then if nat % 3 ≠ 0 then none else
    if v = 60 then some "qtip4pf, type 1"
    else if v = 61 then some "qtip4pf, type 2"
    else if v = 62 then some "qtip4pf, both"
    else if v = 63 then some "type 1"
    else if v = 64 then some "type 2"
    else some "both"
  else if v = 70 then some "orientation"
  else if v = 11 then if nat % 3 ≠ 0 then none else some "efield_v"
  else if v = 8 then if nat ≠ 3 then none else some "PS water"
  else if v = 9 then if nat ≠ 3 then none else some "LEPS_M1"
  else if v = 10 then if nat ≠ 3 then none else some "LEPS_M2"
  else if v = 20 then some "geteckart"
  else if v = 28 then some "get_harmonic_bath"
  else if v = 29 then some "get_meanfield_harmonic_bath"
  else if v = 23 then if nat ≠ 1 then none else some "get_MB"
  else if v = 25 then some "getdoublewell"
  else if v = 24 then some "getdoublewell_1D"
  else if v = 31 then some "h2o_dipole"
  else if v = 1 then some "LJ_getall"
  else if v = 2 then some "SG_getall"
  else if v = 22 then some "ljpolymer_getall"
  else if v = 32 then some "ljmix_getall"
  else some "neighbour list only"

end Verif.F90.Opts
