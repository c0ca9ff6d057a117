import Verif.Io.JsonText
import Verif.Io.Values
/-
Model of the random number generator: ipi/utils/prng.py (class `Random`) and ipi/inputs/prng.py (`InputRandom.store`, `fetch`, lines 66-98).

The Mersenne twister itself is a parameter: `next` is one call of `standard_normal()`, `op k` any other call on generator 0 with its arguments
(`uniform`, `gamma`, ...). Its state is what numpy reports: the key and the position; numpy's `Generator` keeps nothing else for this bit
generator. `spawn seed i` is the state of the i-th generator spawned from a seed.
-/
namespace Verif.Prng
open Verif.Text Verif.JsonText

/-- `bit_generator.state` -/
structure Mt where
  key : List Nat
  pos : Nat
deriving DecidableEq

/-- The numpy generators. -/
structure Lib (G R : Type) where
  next : Mt → G × Mt
  op : Nat → Mt → R × Mt
  spawn : Nat → Nat → Mt

variable {G R : Type}

/-! ### state -/

/-- `set_state` (prng.py:81-89): `zip` stops at the shorter list. -/
def setState : List Mt → List Mt → List Mt
  | _ :: gs, s :: ss => s :: setState gs ss
  | gs, _ => gs

/-- `Random.__init__` (prng.py:44-74); `seed` is the one given or the current time. -/
def create (L : Lib G R) (seed n : Nat) (state : Option (List Mt)) : List Mt :=
  let gens := (List.range n).map (L.spawn seed)
  match state with
  | none => gens
  | some s => setState gens s

def kBit : Str := "bit_generator".toList
def kMt : Str := "MT19937".toList
def kState : Str := "state".toList
def kKey : Str := "key".toList
def kPos : Str := "pos".toList

def jNat (n : Nat) : JV := .num (showNat n)

/-- The dictionary numpy reports for one generator. -/
def jMt (m : Mt) : JV := .obj [(kBit, .str kMt), (kState, .obj [(kKey, .arr (m.key.map jNat)), (kPos, jNat m.pos)])]

/-- `InputRandom.store`: the text of the field `state`. -/
def storeState (gs : List Mt) : Str := Values.writeStr (dumps (.arr (gs.map jMt)))

def natOf : JV → Option Nat
  | .num t => parseNat t
  | _ => none

def allSome {α β : Type} (f : α → Option β) : List α → Option (List β)
  | [] => some []
  | a :: as => match f a, allSome f as with
    | some b, some bs => some (b :: bs)
    | _, _ => none

def field (k : Str) : List (Str × JV) → Option JV
  | [] => none
  | (k', v) :: d => if k' = k then some v else field k d

/-- Setting `bit_generator.state` from a dictionary. -/
def mtOf : JV → Option Mt
  | .obj d =>
    match field kBit d, field kState d with
    | some (.str b), some (.obj e) =>
      if b = kMt then
        match field kKey e, field kPos e with
        | some (.arr l), some p =>
          match allSome natOf l, natOf p with
          | some key, some pos => some ⟨key, pos⟩
          | _, _ => none
        | _, _ => none
      else none
    | _, _ => none
  | _ => none

/-- `InputRandom.fetch`, from the text of the field. -/
def fetchState (t : Str) : Option (List Mt) :=
  match loads (Values.readStr t) with
  | some (.arr l) => allSome mtOf l
  | _ => none

/-! ### filling arrays -/

/-- `n` numbers drawn one after the other. -/
def draws (L : Lib G R) : Nat → Mt → List G × Mt
  | 0, s => ([], s)
  | n + 1, s => ((L.next s).1 :: (draws L n (L.next s).2).1, (draws L n (L.next s).2).2)

/-- The state after `k` draws. -/
def after (L : Lib G R) : Nat → Mt → Mt
  | 0, s => s
  | k + 1, s => (L.next (after L k s)).2

/-- The k-th number drawn. -/
def draw (L : Lib G R) (k : Nat) (s : Mt) : G := (L.next (after L k s)).1

/-- `np.ceil(len / n_threads)` -/
def stepSize (len n : Nat) : Nat := (len + n - 1) / n

def lo (step len i : Nat) : Nat := min (step * i) len
def hi (step len i : Nat) : Nat := min (step * (i + 1)) len

def upd {α : Type} (f : Nat → α) (i : Nat) (v : α) : Nat → α := fun j => if j = i then v else f j

/-- State of a threaded fill: contents of the flattened copy, number of entries filled by each thread, generators, and who wrote what. -/
structure Fill (G : Type) where
  mem : Nat → G
  cnt : Nat → Nat
  gen : Nat → Mt
  log : List (Nat × Nat)

/-- Thread `i` fills the next entry of its slice. -/
def fillStep (L : Lib G R) (step len : Nat) (t : Fill G) (i : Nat) : Fill G :=
  let j := lo step len i + t.cnt i
  if j < hi step len i then
    { mem := upd t.mem j (L.next (t.gen i)).1, cnt := upd t.cnt i (t.cnt i + 1), gen := upd t.gen i (L.next (t.gen i)).2, log := (j, i) :: t.log }
  else t

/-- The threads in any order. -/
def fillRun (L : Lib G R) (step len : Nat) (t : Fill G) (sched : List Nat) : Fill G := sched.foldl (fillStep L step len) t

/-- Start: the copy of the array. -/
def fillInit (out : Nat → G) (gens : Nat → Mt) : Fill G := ⟨out, fun _ => 0, gens, []⟩

/-- All threads have returned. -/
def fillDone (step len n : Nat) (t : Fill G) : Prop := ∀ i < n, hi step len i ≤ lo step len i + t.cnt i

/-! ### calls -/

inductive Call where
  | op (k : Nat)
  | gvec (n : Nat)

inductive Out (G R : Type) where
  | val (r : R)
  | arr (l : List G)

/-- The generators after a threaded fill: each one advanced by the length of its slice. -/
def advance (L : Lib G R) (step len : Nat) (i : Nat) : List Mt → List Mt
  | [] => []
  | g :: gs => after L (hi step len i - lo step len i) g :: advance L step len (i + 1) gs

/-- One call on an object with generators `gs`. `junk` is what `np.empty` returns. `gfill_threaded` (prng.py:184-206) fills `out.flatten()`,
which is a copy: `out` keeps its contents. -/
def call (L : Lib G R) (junk : Nat → G) (c : Call) (gs : List Mt) : Option (Out G R × List Mt) :=
  match gs with
  | [] => none
  | g :: rest =>
    match c with
    | .op k => some (.val (L.op k g).1, (L.op k g).2 :: rest)
    | .gvec n =>
      if rest = [] ∨ stepSize n gs.length < 100 then some (.arr (draws L n g).1, (draws L n g).2 :: rest)
      else some (.arr ((List.range n).map junk), advance L (stepSize n gs.length) n 0 gs)

/-- A sequence of calls; `junk i` is the memory the i-th call finds. -/
def calls (L : Lib G R) : (Nat → Nat → G) → List Call → List Mt → Option (List (Out G R))
  | _, [], _ => some []
  | junk, c :: cs, gs =>
    match call L (junk 0) c gs with
    | none => none
    | some (o, gs') => (calls L (fun i => junk (i + 1)) cs gs').map (o :: ·)

end Verif.Prng
