import Mathlib.Data.Nat.Notation
import Mathlib.Logic.Function.Basic
import Verif.Text.Model

/-!
# Compressed matrices and the frames in which they are written

Model of `/repo/ipi/utils/sparse.py` and of `netstring_encoded_savez` and
`netstring_encoded_loadz` (`/repo/ipi/utils/io/__init__.py` L476-510).
-/

namespace Verif.Sparse

open Verif.Text

variable {α : Type}

/-- A two-dimensional array of numpy with its shape. -/
structure Dense (α : Type) where
  m : ℕ
  n : ℕ
  at' : ℕ → ℕ → α

/-- `nparray.T`. -/
def Dense.tr (M : Dense α) : Dense α := ⟨M.n, M.m, fun i j => M.at' j i⟩

/-- `np.where(nparray != 0)`, the indices in row-major order.  `nz x` is the comparison
`x != 0` of the numbers, which is true for a nan. -/
def nonzero (nz : α → Bool) (M : Dense α) : List (ℕ × ℕ) :=
  (List.range M.m).flatMap fun i => ((List.range M.n).filter fun j => nz (M.at' i j)).map fun j => (i, j)

/-- `ia = np.zeros(len + 1)` and `for row in rows: ia[row + 1] += 1`, sparse.py L96-98 and
L133-135. -/
def counts (len : ℕ) (rows : List ℕ) : List ℕ :=
  rows.foldl (fun ia row => ia.modify (row + 1) (· + 1)) (List.replicate (len + 1) 0)

/-- `np.cumsum` started at `s`. -/
def cumsumFrom : ℕ → List ℕ → List ℕ
  | _, [] => []
  | s, x :: l => (s + x) :: cumsumFrom (s + x) l

/-- The attribute `kind`. -/
inductive Kind where
  | csr | csc
  deriving DecidableEq

/-- The attributes of a `csr_matrix` or a `csc_matrix`. -/
structure Mat (α : Type) where
  kind : Kind
  a : List α
  ia : List ℕ
  ja : List ℕ
  m : ℕ
  n : ℕ

/-- `csr_matrix(nparray)`, sparse.py L88-100. -/
def csr (nz : α → Bool) (M : Dense α) : Mat α :=
  { kind := .csr
    m := M.m
    n := M.n
    a := (nonzero nz M).map fun p => M.at' p.1 p.2
    ia := cumsumFrom 0 (counts M.m ((nonzero nz M).map Prod.fst))
    ja := (nonzero nz M).map Prod.snd }

/-- `csc_matrix(nparray)`, sparse.py L125-137. -/
def csc (nz : α → Bool) (M : Dense α) : Mat α :=
  { kind := .csc
    m := M.m
    n := M.n
    a := (nonzero nz M.tr).map fun p => M.tr.at' p.1 p.2
    ia := cumsumFrom 0 (counts M.n ((nonzero nz M.tr).map Prod.fst))
    ja := (nonzero nz M.tr).map Prod.snd }

/-- The python slice `l[i:j]` for non-negative bounds. -/
def slice {β : Type} (l : List β) (i j : ℕ) : List β := (l.drop i).take (j - i)

/-- The assignment `line[idx] = vals` to the elements of one line of an array; for repeated
indices the last value stays. -/
def assign (line : ℕ → α) (idx : List ℕ) (vals : List α) : ℕ → α :=
  (idx.zip vals).foldl (fun l p => Function.update l p.1 p.2) line

/-- The line `k` of the dense form: the row `k` of a `csr_matrix` (L113-116), the column `k` of a
`csc_matrix` (L150-153). -/
def line (zero : α) (S : Mat α) (k : ℕ) : ℕ → α :=
  assign (fun _ => zero) (slice S.ja (S.ia.getD k 0) (S.ia.getD (k + 1) 0))
    (slice S.a (S.ia.getD k 0) (S.ia.getD (k + 1) 0))

/-- `toarray` of the two classes, sparse.py L111-117 and L148-154.  The lines are assigned in
turn to different parts of the array, so that the order does not matter. -/
def toarray (zero : α) (S : Mat α) : Dense α :=
  ⟨S.m, S.n, fun i j =>
    match S.kind with
    | .csr => line zero S i j
    | .csc => line zero S j i⟩

/-- `__add__`, `__sub__` and `__mul__` of `sparse_matrix` (L59-72) for the operation `op` of numpy
on the dense arrays of the same shape (no broadcasting): always a `csr_matrix`. -/
def elementwise (nz : α → Bool) (zero : α) (op : α → α → α) (A B : Mat α) : Mat α :=
  csr nz ⟨(toarray zero A).m, (toarray zero A).n,
    fun i j => op ((toarray zero A).at' i j) ((toarray zero B).at' i j)⟩

/-- The dictionary written by `save_npz` (L36-52); `kind` is the string `"csr"` or `"csc"`. -/
structure Npz (α : Type) where
  a : List α
  ia : List ℕ
  ja : List ℕ
  m : ℕ
  n : ℕ
  kind : String

/-- `save_npz`, L36-52. -/
def save (S : Mat α) : Npz α :=
  { a := S.a, ia := S.ia, ja := S.ja, m := S.m, n := S.n,
    kind := match S.kind with | .csr => "csr" | .csc => "csc" }

/-- `load_npz`, L17-29. -/
def load (d : Npz α) : Mat α :=
  if d.kind = "csr" then { kind := .csr, a := d.a, ia := d.ia, ja := d.ja, m := d.m, n := d.n }
  else { kind := .csc, a := d.a, ia := d.ia, ja := d.ja, m := d.m, n := d.n }

/-! ## Frames -/

/-- What python raises here. -/
inductive Err where
  | valueError (msg : String)
  | typeError
  deriving DecidableEq, Repr

/-- The text written by `netstring_encoded_savez` for a given content, io/__init__.py L485:
`str(len(content)) + ":" + content + ","`. -/
def frame (content : Str) : Str := showNat content.length ++ ':' :: (content ++ [','])

/-- The loop reading the digits, L494-496: the digits, and what is left in the file. -/
def readDigits : Str → Str × Str
  | [] => ([], [])
  | c :: s => if isDigit c then ((c :: (readDigits s).1), (readDigits s).2) else ([], c :: s)

/-- The value of `int(length)` for a string of digits. -/
def digitsVal (s : Str) : ℕ := s.foldl (fun x c => x * 10 + digitVal c) 0

/-- `if not ifile.read(1) == c: raise ValueError(…)`, L497-498 and L500-501; `read(1)` at the end of
the file is an empty string. -/
def expect (c : Char) (s : Str) : Except Err Str :=
  if s.head? = some c then .ok s.tail else .error (.valueError "Invalid netstring delimiter")

/-- `netstring_encoded_loadz` up to the unpacking of the content, L488-502: the content and the
rest of the file.  If there are no digits before the colon python raises a `ValueError` of its
own in `int("")`. -/
def unframe (file : Str) : Except Err (Str × Str) :=
  if file.head? = some '0' then .error (.valueError "Reading an empty netstring")
  else
    match expect ':' (readDigits file).2 with
    | .error e => .error e
    | .ok body =>
      if (readDigits file).1 = [] then .error (.valueError "invalid literal for int() with base 10: ''")
      else
        match expect ',' (body.drop (digitsVal (readDigits file).1)) with
        | .error e => .error e
        | .ok rest => .ok (body.take (digitsVal (readDigits file).1), rest)

/-- All the frames of a file, one after the other, until it ends. `fuel` bounds the number of
frames. -/
def unframeAll : ℕ → Str → Except Err (List Str)
  | 0, _ => .ok []
  | fuel + 1, file =>
    if file = [] then .ok []
    else
      match unframe file with
      | .error e => .error e
      | .ok (c, rest) => (unframeAll fuel rest).map (c :: ·)

/-- The two kinds of buffers of the `io` module. -/
inductive Buffer where
  | stringIO | bytesIO
  deriving DecidableEq

/-- `np.savez` and `np.savez_compressed` write the bytes of a zip archive: into a `BytesIO` these
can be written, a `StringIO` raises a `TypeError` for anything but a string. -/
def savez (b : Buffer) (archive : List UInt8) : Except Err (List UInt8) :=
  match b with
  | .bytesIO => .ok archive
  | .stringIO => .error .typeError

/-- `netstring_encoded_savez` (L476-485) with the buffer of L477: what is appended to the file.
The archive is taken to be the characters with the same codes. -/
def encodedSavez (archive : List UInt8) : Except Err Str :=
  match savez .stringIO archive with
  | .error e => .error e
  | .ok bytes => .ok (frame (bytes.map fun b => Char.ofNat b.toNat))

end Verif.Sparse
