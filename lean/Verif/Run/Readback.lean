import Verif.Io.Traj
import Verif.Io.Values
import Verif.Run.Columns
/-
Model of the reading of output files by the scripting functions: `read_output` and `read_trajectory` (ipi/scripting/parsing.py), and of the writing of
property files (`PropertyOutput.print_header` and `write`, ipi/engine/outputs.py:232-297) and extras files (`TrajectoryOutput.write_traj` 543-556).

Files are text with `\n` line ends. Numbers are written and read by a `Num` (`fmtE` stands for `write_type(float, …)`, `rd` for `float()`). The result of
`read_output` is kept as rows: the final `np.array(…).squeeze()` is left out. In the regular expressions `\d` and `\w` stand for ASCII characters.
-/
namespace Verif.Readback
open Verif.Text Verif.Traj

variable {V : Type}

/-! ### writing -/

/-- A requested property: the text of the request, the number of columns and the description. -/
structure Item where
  what : Str
  size : Nat
  help : Str

/-- `"%-3s"` -/
def padR (n : Nat) (s : Str) : Str := s ++ List.replicate (n - s.length) ' '

def kColumn : Str := "column".toList
def kCols : Str := "cols.".toList
def kArrow : Str := "-->".toList

/-- The columns in the header (outputs.py:246-255): `"column %3d    "` or `"cols.  %3d-%-3d"`. -/
def colText (icol : Nat) (i : Item) : Str :=
  if i.size = 1 then kColumn ++ ' ' :: (padL 3 (showNat icol) ++ "    ".toList)
  else kCols ++ ' ' :: ' ' :: (padL 3 (showNat icol) ++ '-' :: padR 3 (showNat (icol + i.size - 1)))

/-- One line of the header, without its line end (outputs.py:243-260). -/
def headText (icol : Nat) (i : Item) : Str :=
  '#' :: ' ' :: (colText icol i ++ ' ' :: (kArrow ++ ' ' :: (i.what ++ ' ' :: ':' :: ' ' :: i.help)))

/-- The header. -/
def header (icol : Nat) : List Item → Str
  | [] => []
  | i :: is => headText icol i ++ '\n' :: header (icol + i.size) is

/-- The text of a quantity (outputs.py:284-288): numbers followed by three blanks, arrays by one blank for each element. -/
def quantityText (N : Num V) : Columns.Quantity V → Str
  | .scalar v => N.fmtE v ++ "   ".toList
  | .vec vs => vs.flatMap fun v => N.fmtE v ++ [' ']

/-- One row, without its line end (outputs.py:274-290). -/
def rowText (N : Num V) (qs : List (Columns.Quantity V)) : Str := ' ' :: ' ' :: qs.flatMap (quantityText N)

/-- A property file. -/
def writeOutput (N : Num V) (is : List Item) (rows : List (List (Columns.Quantity V))) : Str :=
  header 1 is ++ rows.flatMap fun qs => rowText N qs ++ ['\n']

/-! ### reading of property files -/

/-- What the pattern of a header line captures. -/
structure Head where
  first : Str
  last : Option Str
  name : Str
  before : Option Str
  args : Option Str
  after : Option Str
  description : Str
deriving DecidableEq

/-- The rest after a given beginning. -/
def dropPrefix? (p s : Str) : Option Str := if p.isPrefixOf s then some (s.drop p.length) else none

/-- An optional group `(?:o([^c]+)c)?`. -/
def group (o c : Char) : Str → Option Str × Str
  | [] => (none, [])
  | d :: r =>
    if d = o ∧ (r.takeWhile fun x => x ≠ c) ≠ [] then
      match r.dropWhile fun x => x ≠ c with
      | [] => (none, d :: r)
      | _ :: t => (some (r.takeWhile fun x => x ≠ c), t)
    else (none, d :: r)

/-- The optional `(?:-(\d+))?`. -/
def lastCol : Str → Option Str × Str
  | '-' :: r => if r.takeWhile isDigit ≠ [] then (some (r.takeWhile isDigit), r.dropWhile isDigit) else (none, '-' :: r)
  | r => (none, r)

/-- The characters of a name, `[^\s\{\(]`. -/
def nameChar (c : Char) : Bool := !isWs c && c ≠ '{' && c ≠ '('

/-- The pattern of header lines (parsing.py:36-38), from the name on. -/
def matchName (first : Str) (last : Option Str) (s : Str) : Option Head :=
  if s.takeWhile nameChar = [] then none
  else
    let b := group '{' '}' (s.dropWhile nameChar)
    let a := group '(' ')' b.2
    let u := group '{' '}' a.2
    match u.2.dropWhile isWs with
    | ':' :: r => some ⟨first, last, s.takeWhile nameChar, b.1, a.1, u.1, (r.dropWhile isWs).takeWhile fun c => c ≠ '\n'⟩
    | _ => none

/-- The pattern from the first column on. -/
def matchCols (s : Str) : Option Head :=
  match s with
  | c :: _ =>
    if isWs c then
      let r := s.dropWhile isWs
      if r.takeWhile isDigit = [] then none
      else
        let l := lastCol (r.dropWhile isDigit)
        match dropPrefix? kArrow (l.2.dropWhile isWs) with
        | some t => matchName (r.takeWhile isDigit) l.1 (t.dropWhile isWs)
        | none => none
    else none
  | [] => none

/-- `header_pattern.match(line)` (parsing.py:36-38).  Every part takes as much as it can; giving back characters does not help for names without a colon. -/
def matchHeader : Str → Option Head
  | '#' :: s =>
    match dropPrefix? kColumn (s.dropWhile isWs) with
    | some r => matchCols r
    | none =>
      match dropPrefix? kCols (s.dropWhile isWs) with
      | some r => matchCols r
      | none => none
  | _ => none

/-- A property found in the header: the columns as the key of the dictionary, the name, units and description (parsing.py:62-75). -/
structure Found where
  first : Nat
  last : Option Nat
  name : Str
  units : Option Str
  description : Str
deriving DecidableEq

/-- The name of the property with its arguments (parsing.py:66-69). -/
def Head.fullName (h : Head) : Str :=
  match h.args with
  | some a => h.name ++ '(' :: (a ++ [')'])
  | none => h.name

/-- The entry made from a match (parsing.py:50-75). The numbers consist of digits. -/
def Head.found (h : Head) : Found :=
  ⟨(parseNat h.first).getD 0, h.last.map fun l => (parseNat l).getD 0, h.fullName, h.after.or h.before, h.description⟩

/-- `properties[col_info] = …` for all the headers: a later line with the same columns replaces the entry of an earlier one. -/
def addFound (fs : List Found) (f : Found) : List Found :=
  if (fs.any fun g => g.first = f.first ∧ g.last = f.last) then fs.map fun g => if g.first = f.first ∧ g.last = f.last then f else g
  else fs ++ [f]

/-- The properties of a file (parsing.py:40-75). -/
def properties (ls : List Str) : List Found :=
  ((ls.filter fun l => l.head? = some '#').filterMap matchHeader).foldl (fun fs h => addFound fs h.found) []

/-- The values of a property in a row (parsing.py:88-101); `none` is an exception. -/
def pick (f : Found) (values : List Str) : Option (List Str) :=
  match f.last with
  | some l => some ((values.take l).drop (f.first - 1))
  | none => (values[f.first - 1]?).map fun v => [v]

/-- `values_dict[name].append(row)` -/
def append (d : List (Str × List (List V))) (k : Str) (r : List V) : List (Str × List (List V)) :=
  d.map fun e => if e.1 = k then (e.1, e.2 ++ [r]) else e

/-- The inner loop over the properties for one row. -/
def addRow (N : Num V) (values : List Str) : List Found → List (Str × List (List V)) → Option (List (Str × List (List V)))
  | [], d => some d
  | f :: fs, d =>
    match pick f values with
    | none => none
    | some ws =>
      match rdAll N ws with
      | none => none
      | some r => addRow N values fs (append d f.name r)

/-- The loop over the rows. -/
def addRows (N : Num V) (fs : List Found) : List Str → List (Str × List (List V)) → Option (List (Str × List (List V)))
  | [], d => some d
  | l :: ls, d =>
    match addRow N (splitWs l) fs d with
    | none => none
    | some d' => addRows N fs ls d'

/-- `read_output` (parsing.py:22-109): the values and the information on units and descriptions; `none` is an exception. -/
def readOutput (N : Num V) (text : Str) : Option (List (Str × List (List V)) × List (Str × Option Str × Str)) :=
  let ls := lines text
  let fs := properties ls
  let data := ls.filter fun l => l.head? ≠ some '#' ∧ strip l ≠ []
  let d := fs.foldl (fun d f => Values.insert d f.name []) []
  let info := fs.foldl (fun d f => Values.insert d f.name (f.units, f.description)) []
  (addRows N fs data d).map fun v => (v, info)

/-! ### steps of trajectories -/

def kStep : Str := "Step:".toList

/-- The title of a frame (outputs.py:651): `"Step:  %10d  Bead:   %5d "`. -/
def stepTitle (step bead : Nat) : Str := kStep ++ ' ' :: ' ' :: (padL 10 (showNat step) ++ ("  Bead:   ".toList ++ (padL 5 (showNat bead) ++ [' '])))

/-- `Step:\s+(\d+)` at the start of a text: the digits. -/
def stepAt (s : Str) : Option Str :=
  match dropPrefix? kStep s with
  | some (c :: r) =>
    if isWs c ∧ (r.dropWhile isWs).takeWhile isDigit ≠ [] then some ((r.dropWhile isWs).takeWhile isDigit) else none
  | _ => none

/-- `step_regex.findall(text)`. The matches do not overlap; since a match consists of `Step:`, blanks and digits no other one can start inside it. -/
def stepAll : Str → List Str
  | [] => []
  | c :: s => match stepAt (c :: s) with
    | some d => d :: stepAll s
    | none => stepAll s

/-- The step of a frame (parsing.py:214-217). The pattern has one group, so that `findall` gives texts, and `matches[-1][0]` is the first character
of the last one. -/
def frameStep (comment : Str) : Option Nat :=
  match (stepAll comment).getLast? with
  | some d => (d.head?).bind fun c => parseNat [c]
  | none => none

/-! ### extras -/

def kExtras : Str := "#EXTRAS".toList

/-- The header line of extras (outputs.py:552-555): `" #%s(%s)# Step:  %10d \n"`, without its line end. -/
def extrasHead (kind : Str) (step : Nat) : Str := ' ' :: (kExtras ++ '(' :: (kind ++ ')' :: '#' :: ' ' :: (kStep ++ ' ' :: ' ' :: (padL 10 (showNat step) ++ [' ']))))

/-- The extras of one step (outputs.py:544-613): the header line, the data as text, a line end. -/
def extrasFrame (kind : Str) (step : Nat) (text : Str) : Str := extrasHead kind step ++ '\n' :: (text ++ ['\n'])

/-- `#EXTRAS[^(]*\(([^)]+)\)# *Step:\s+(\d+)` at the start of a text: kind and step (parsing.py:157). -/
def extrasAt (s : Str) : Option (Str × Str) :=
  match dropPrefix? kExtras s with
  | some r =>
    match r.dropWhile fun c => c ≠ '(' with
    | _ :: r =>
      if (r.takeWhile fun c => c ≠ ')') = [] then none
      else
        match r.dropWhile fun c => c ≠ ')' with
        | _ :: '#' :: t => (stepAt (t.dropWhile fun c => c = ' ')).map fun d => (r.takeWhile fun c => c ≠ ')', d)
        | _ => none
    | [] => none
  | none => none

/-- The first match in a line. -/
def extrasSearch : Str → Option (Str × Str)
  | [] => none
  | c :: s => match extrasAt (c :: s) with
    | some m => some m
    | none => extrasSearch s

/-- What is returned for one frame: an array made by `np.loadtxt`, or text. -/
inductive Datum (A : Type) where
  | array (a : A)
  | text (s : Str)
deriving DecidableEq

/-- The data of a frame (parsing.py:166-175): `load` stands for `np.loadtxt`. -/
def datum {A : Type} (load : List Str → Option A) (frame : List Str) : Datum A :=
  match load frame with
  | some a => .array a
  | none => .text (join ['\n'] frame)

/-- The loop over the lines of an extras file (parsing.py:158-201), with the steps, the data, the lines of the current frame and the name of the quantity; `none` is the
`ValueError`. The final conversion of a list of arrays into one array is left out. -/
def extrasLoop {A : Type} (load : List Str → Option A) :
    List Str → List Nat → List (Datum A) → List Str → Str → Option (List Nat × Str × List (Datum A))
  | [], steps, data, frame, name => some (steps, name, if frame = [] then data else data ++ [datum load frame])
  | l :: ls, steps, data, frame, name =>
    match extrasSearch l with
    | none => extrasLoop load ls steps data (frame ++ [l]) name
    | some (k, d) =>
      let data' := if frame = [] then data else data ++ [datum load frame]
      if name = [] then extrasLoop load ls (steps ++ [(parseNat d).getD 0]) data' [] k
      else if name ≠ k then none
      else extrasLoop load ls (steps ++ [(parseNat d).getD 0]) data' [] name

/-- `read_trajectory(…, format="extras")`. -/
def readExtras {A : Type} (load : List Str → Option A) (text : Str) : Option (List Nat × Str × List (Datum A)) :=
  extrasLoop load (lines text) [] [] [] []

end Verif.Readback
