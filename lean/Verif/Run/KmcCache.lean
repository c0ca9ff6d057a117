import Mathlib.Data.Nat.Notation
import Mathlib.Logic.Function.Basic
import Mathlib.Data.List.Basic

/-
The cache of relaxed structures of kinetic Monte Carlo and the threads that fill it (`ipi/engine/motion/al6xxx_kmc.py`).
-/
namespace Verif.KmcCache

/-- An ordered dictionary (L200-201): pairs of key and value, the oldest first.  Setting a key that is there replaces its value. -/
def put {K α : Type} [DecidableEq K] (d : List (K × α)) (k : K) (v : α) : List (K × α) :=
  if k ∈ d.map Prod.fst then d.map fun x => if x.1 = k then (k, v) else x else d ++ [(k, v)]

/-- Reading a key; `none` stands for the `KeyError`. -/
def get {K α : Type} [DecidableEq K] (d : List (K × α)) (k : K) : Option α := (d.find? fun x => decide (x.1 = k)).map Prod.snd

/-- What a step needs: the labels of the structures its events lead to, in order, and their number (L522-540); the number of evaluators
(L95); the greatest length of the cache (L183); the results of the relaxation of a structure, and whether it raises an exception
(`GeopMotion` and the force fields are not modelled: a function of the structure, as the comment at L175 intends); the zeros with which an event is
made (L561). -/
structure Cfg (K α β : Type) where
  keys : ℕ → K
  n : ℕ
  neval : ℕ
  max : ℕ
  E : K → α
  Q : K → β
  fails : K → Bool
  a0 : α
  b0 : β

/-- Where a thread is in `geop_thread` (L322-356): relaxing (L323-330); inside the first block with the lock, setting the energy (L334),
the positions (L335), testing the counter (L336-340), removing the oldest positions (L338), reading the energy (L341) and the positions
(L342), leaving the block; marking the evaluator as free (L351-352); at the end; ended by an exception. -/
inductive Pc
  | run | ins | insq | test | popq | reade | readq | rel | fin | done | dead
deriving DecidableEq

/-- Whether the thread holds the lock. -/
def Pc.crit : Pc → Bool
  | .ins | .insq | .test | .popq | .reade | .readq | .rel => true
  | _ => false

/-- Whether it still has its evaluator. -/
def Pc.active : Pc → Bool
  | .done | .dead => false
  | _ => true

/-- A thread: the structure, the evaluator, the number of the event and the results, with its place (L561-577). -/
structure Worker (K α β : Type) where
  key : K
  ev : ℕ
  out : ℕ
  pc : Pc
  val : α × β

/-- Where the main thread is in the loop over the events (L529-602): looking up the label (L540), waiting for an evaluator and starting a
thread (L555-577), reading the energy to print it (L579-584), reading it and the positions (L587). -/
inductive Mpc
  | check | launch | hit1 | hit2 | hit3
deriving DecidableEq

/-- The shared state: both dictionaries, the counter, the flags of the evaluators, the structures they hold, the threads and their number,
the lock, the number of the next event, the place of the main thread, the energy it read, the results of the events, and whether it
stopped with a `KeyError`. -/
structure St (K α β : Type) where
  ec : List (K × α)
  qc : List (K × β)
  nc : ℕ
  feval : ℕ → Bool
  beads : ℕ → K
  ws : ℕ → Worker K α β
  nw : ℕ
  lock : Option ℕ
  pos : ℕ
  mpc : Mpc
  tmp : α
  re : ℕ → α
  rq : ℕ → β
  err : Bool

variable {K α β : Type} [DecidableEq K]

/-- Moves thread `i` to a place. -/
def St.goto (s : St K α β) (i : ℕ) (pc : Pc) : St K α β := { s with ws := Function.update s.ws i { s.ws i with pc := pc } }

/-- One operation of thread `i` (`geop_thread` L322-356).  A thread that waits for the lock stays where it is.  An exception inside the
block with the lock releases it.  `popitem` of an empty dictionary does not occur, since it follows an insertion. -/
def work (c : Cfg K α β) (s : St K α β) (i : ℕ) : St K α β :=
  let w := s.ws i
  match w.pc with
  | .run =>
    if c.fails (s.beads w.ev) then s.goto i .dead
    else if s.lock = none then
      { s with lock := some i, ws := Function.update s.ws i { w with pc := .ins, val := (c.E (s.beads w.ev), c.Q (s.beads w.ev)) } }
    else s
  | .ins => { s.goto i .insq with ec := put s.ec w.key w.val.1 }
  | .insq => { s.goto i .test with qc := put s.qc w.key w.val.2 }
  | .test => if s.nc = c.max then { s.goto i .popq with ec := s.ec.tail } else { s.goto i .reade with nc := s.nc + 1 }
  | .popq => { s.goto i .reade with qc := s.qc.tail }
  | .reade =>
    match get s.ec w.key with
    | none => { s.goto i .dead with lock := none }
    | some v => { s.goto i .readq with re := Function.update s.re w.out v }
  | .readq =>
    match get s.qc w.key with
    | none => { s.goto i .dead with lock := none }
    | some v => { s.goto i .rel with rq := Function.update s.rq w.out v }
  | .rel => { s.goto i .fin with lock := none }
  | .fin => if s.lock = none then { s.goto i .done with feval := Function.update s.feval w.ev true } else s
  | .done => s
  | .dead => s

/-- The first free evaluator (`find_eval` L434-440). -/
def freeEval (neval : ℕ) (feval : ℕ → Bool) : Option ℕ := (List.range neval).find? feval

/-- One operation of the main thread (L540-602).  It waits while no evaluator is free (L427-433) and while the lock is taken (L434). -/
def main (c : Cfg K α β) (s : St K α β) : St K α β :=
  if s.err then s
  else if s.pos < c.n then
    let k := c.keys s.pos
    match s.mpc with
    | .check => { s with mpc := if k ∈ s.ec.map Prod.fst then .hit1 else .launch }
    | .launch =>
      if s.lock = none then
        match freeEval c.neval s.feval with
        | none => s
        | some e =>
          { s with
            feval := Function.update s.feval e false
            beads := Function.update s.beads e k
            ws := Function.update s.ws s.nw ⟨k, e, s.pos, .run, (c.a0, c.b0)⟩
            nw := s.nw + 1
            re := Function.update s.re s.pos c.a0
            rq := Function.update s.rq s.pos c.b0
            pos := s.pos + 1
            mpc := .check }
      else s
    | .hit1 =>
      match get s.ec k with
      | none => { s with err := true }
      | some _ => { s with mpc := .hit2 }
    | .hit2 =>
      match get s.ec k with
      | none => { s with err := true }
      | some v => { s with mpc := .hit3, tmp := v }
    | .hit3 =>
      match get s.qc k with
      | none => { s with err := true }
      | some v =>
        { s with re := Function.update s.re s.pos s.tmp, rq := Function.update s.rq s.pos v, pos := s.pos + 1, mpc := .check }
  else s

/-- Whose turn it is. -/
inductive Act
  | main
  | work (i : ℕ)

def step (c : Cfg K α β) (s : St K α β) : Act → St K α β
  | .main => main c s
  | .work i => if i < s.nw then work c s i else s

/-- The threads run in any order. -/
def run (c : Cfg K α β) : St K α β → List Act → St K α β
  | s, [] => s
  | s, a :: l => run c (step c s a) l

/-- All events are known and all threads have ended (L603-606). -/
def finished (c : Cfg K α β) (s : St K α β) : Prop := s.pos = c.n ∧ ∀ i < s.nw, (s.ws i).pc.active = false

/-- At the beginning of the loop: no thread runs and all evaluators are free; the counter is the length of the cache, as after loading it
(L202) and after each thread that ended; both dictionaries have the same keys. -/
structure Start (c : Cfg K α β) (s : St K α β) : Prop where
  lock : s.lock = none
  nw : s.nw = 0
  pos : s.pos = 0
  mpc : s.mpc = .check
  err : s.err = false
  free : ∀ e < c.neval, s.feval e = true
  same : s.ec.map Prod.fst = s.qc.map Prod.fst
  len : s.nc = s.ec.length
  right : ∀ x ∈ s.ec, x.2 = c.E x.1
  rightq : ∀ x ∈ s.qc, x.2 = c.Q x.1

end Verif.KmcCache
