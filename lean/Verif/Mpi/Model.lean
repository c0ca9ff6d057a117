import Verif.Wire.Codec
/-
Model of the buffers exchanged with MPI drivers: `InterfaceMPI._dispatch` (packing, ipi/interfaces/mpi.py:294-324),
`InterfaceMPI._unpack_results` (mpi.py:273-292), `_mpi_eval_batch` and `_mpi_send_results` (drivers/py/driver.py:301-331).

Floating point numbers are any type `F` (they are only moved around). Buffers are lists; numpy's slice assignment and slicing are
modelled as such, with `none` when numpy raises because the sizes differ (a one-element array would be broadcast; positions,
cells and forces never have one element).
-/
namespace Verif.Mpi
open Verif.Wire

/-- `buf[a:b] = vals` -/
def setSlice {F : Type} (buf : List F) (a b : Nat) (vals : List F) : Option (List F) :=
  if vals.length = min b buf.length - a then some (buf.take a ++ vals ++ buf.drop (a + vals.length)) else none

/-- `buf[a:b]` -/
def slice {α : Type} (buf : List α) (a b : Nat) : List α := (buf.take b).drop a

/-- A structure: cell, inverse cell and positions, flattened. -/
structure Struct (F : Type) where
  h : List F
  ih : List F
  pos : List F
deriving DecidableEq

/-- What a driver returns for one structure. -/
structure Result (F : Type) where
  pot : F
  force : List F
  vir : List F
  extra : String
deriving DecidableEq

variable {F : Type}

/-- The packing loop of `_dispatch` (mpi.py:312-317); `i` is the running index. -/
def packLoop (nat : Nat) : Nat → List (Struct F) → List F → Option (List F)
  | _, [], body => some body
  | i, s :: ss, body =>
    let off := i * (18 + 3 * nat)
    (setSlice body off (off + 9) s.h).bind fun body =>
    (setSlice body (off + 9) (off + 18) s.ih).bind fun body =>
    (setSlice body (off + 18) (off + 18 + 3 * nat) s.pos).bind fun body =>
    packLoop nat (i + 1) ss body

/-- Packing a batch: the atom count is that of the first structure (mpi.py:308-317); `np.empty` gives arbitrary content
`junk`. -/
def pack (junk : F) (batch : List (Struct F)) : Option (Nat × List F) :=
  match batch with
  | [] => none
  | s :: ss =>
    let nat := s.pos.length / 3
    (packLoop nat 0 (s :: ss) (List.replicate ((s :: ss).length * (18 + 3 * nat)) junk)).map fun b => (nat, b)

/-- Unpacking by the driver (driver.py:304-310): cell and positions of each structure. -/
def unpackWork (nat batch : Nat) (body : List F) : List (List F × List F) :=
  (List.range batch).map fun i =>
    let stride := 18 + 3 * nat
    let off := i * stride
    (slice body off (off + 9), slice body (off + 18) (off + stride))

/-- Packing of the numbers by the driver (driver.py:316-327). -/
def packResLoop (nat : Nat) : Nat → List (Result F) → List F → Option (List F)
  | _, [], buf => some buf
  | i, r :: rs, buf =>
    let stride := 1 + 3 * nat + 9
    let base := i * stride
    (setSlice buf base (base + 1) [r.pot]).bind fun buf =>
    (setSlice buf (base + 1) (base + 1 + 3 * nat) r.force).bind fun buf =>
    (setSlice buf (base + 1 + 3 * nat) (base + stride) r.vir).bind fun buf =>
    packResLoop nat (i + 1) rs buf

def packRes (junk : F) (nat : Nat) (rs : List (Result F)) : Option (List F) :=
  packResLoop nat 0 rs (List.replicate (rs.length * (1 + 3 * nat + 9)) junk)

/-- Packing of the extra strings (driver.py:328-331): byte length and bytes of each. -/
def packExtra (rs : List (Result F)) : List UInt8 :=
  rs.flatMap fun r => encI32 (utf8 r.extra).length ++ utf8 r.extra

/-- Why unpacking can fail. -/
inductive Bad where
  | index
  | unicode
deriving DecidableEq

/-- `_unpack_results` (mpi.py:273-292) for `n` requests, starting at request `i` and byte `epos`. -/
def unpackRes (nat : Nat) (numeric : List F) (ebuf : List UInt8) : Nat → Nat → Nat → Except Bad (List (Result F))
  | _, _, 0 => .ok []
  | i, epos, n + 1 =>
    let stride := 1 + 3 * nat + 9
    let base := i * stride
    match numeric[base]? with
    | none => .error .index
    | some pot =>
      let force := slice numeric (base + 1) (base + 1 + 3 * nat)
      let vir := slice numeric (base + 1 + 3 * nat) (base + stride)
      if (slice ebuf epos (epos + 4)).length < 4 then .error .index
      else
        let elen := (decI32 (slice ebuf epos (epos + 4))).toNat
        let epos := epos + 4
        match (if elen = 0 then some "" else utf8? (slice ebuf epos (epos + elen))) with
        | none => .error .unicode
        | some extra =>
          match unpackRes nat numeric ebuf (i + 1) (epos + elen) n with
          | .error e => .error e
          | .ok rest => .ok (⟨pot, force, vir, extra⟩ :: rest)

/-! ### assignment of driver roots to force fields -/

abbrev Rank := Nat

/-- Insertion into a sorted list. -/
def insertSorted (x : Nat) : List Nat → List Nat
  | [] => [x]
  | y :: ys => if x ≤ y then x :: y :: ys else y :: insertSorted x ys

/-- `sorted(...)` -/
def sorted (l : List Nat) : List Nat := l.foldr insertSorted []

/-- Configuration errors of `_assign`. -/
inductive AssignErr where
  | untagged
  | unknownName
  | noDrivers
deriving DecidableEq

/-- `roots_by_name.setdefault(name, []).append(root)` (mpi.py:98) -/
def addRoot (buckets : List (String × List Rank)) (name : String) (r : Rank) : List (String × List Rank) :=
  match buckets with
  | [] => [(name, [r])]
  | (n, rs) :: bs => if n = name then (n, rs ++ [r]) :: bs else (n, rs) :: addRoot bs name r

/-- The handshake: one (name, root) pair per group, in order of arrival (mpi.py:78-99). -/
def buckets (hellos : List (String × Rank)) : List (String × List Rank) :=
  hellos.foldl (fun b h => addRoot b h.1 h.2) []

/-- `dict.get(name)` -/
def lookup (b : List (String × List Rank)) (name : String) : List Rank :=
  match b with
  | [] => []
  | (n, rs) :: bs => if n = name then rs else lookup bs name

/-- `MPIWorldManager._assign` (mpi.py:103-127). `names` are the registered force fields (a set). -/
def assign (names : List String) (b : List (String × List Rank)) : Except AssignErr (List (String × List Rank)) :=
  if names.length = 1 then .ok [(names.headD "", sorted (b.flatMap (·.2)))]
  else if b.any (fun x => x.1 = "") then .error .untagged
  else if b.any (fun x => !names.contains x.1) then .error .unknownName
  else if names.any (fun n => (lookup b n).isEmpty) then .error .noDrivers
  else .ok (b.map fun x => (x.1, sorted x.2))

/-- `roots_for` (mpi.py:129-130) -/
def rootsFor (a : List (String × List Rank)) (name : String) : List Rank := lookup a name

end Verif.Mpi
