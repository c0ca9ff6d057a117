import Verif.Text.Lemmas
/-
Model of the python driver's message loop `run_driver` (drivers/py/driver.py:56-285), socket transport, and of the
announcement of batching by i-PI (`Driver.initialize`, ipi/interfaces/sockets.py:358-390).

Simplifications: messages arrive whole (framing is the subject of C06/C53); the shared memory variant is modelled in Verif.Wire.Shm; the
potential is a total function `eval` and `good` says whether its result passes the size checks of lines 239-250.
-/
namespace Verif.Driver
open Verif.Text

/-- What i-PI sends. A position message holds one structure per entry. -/
inductive Msg (P : Type) where
  | status
  | init (s : Str)
  | pos (ps : List P)
  | getforce
  | exit
  /-- any other header, including the empty one read after the connection was closed -/
  | other
deriving DecidableEq

inductive Reply (R : Type) where
  | needinit
  | havedata
  | ready
  | forces (rs : List R)
deriving DecidableEq

/-- Ways in which the driver process ends with an exception. -/
inductive Crash where
  /-- `nat` or `extras` unbound: forces asked before any position (line 253) -/
  | nameError
  /-- `results_batch` is `None` (line 204) -/
  | typeError
  /-- "Atom number changed during i-PI run" (line 172) -/
  | natChanged
  /-- the results do not have the right size (lines 225-250) -/
  | badSize
  /-- the number of structures sent is not the one the driver reads: the stream is out of step -/
  | desync
deriving DecidableEq

structure Cfg (P R : Type) where
  eval : P → R
  natoms : P → Nat
  good : P → R → Bool

/-- Local variables of `run_driver` (lines 79-98). -/
structure St (P R : Type) where
  fInit : Bool := false
  fData : Bool := false
  batchN : Int := 1
  /-- positions and result of the last single evaluation -/
  single : Option (P × R) := none
  /-- results of the last batched evaluation -/
  batch : Option (List R) := none
  /-- the loop was left after EXIT -/
  exited : Bool := false
deriving DecidableEq

/-- One token of the initialisation string (lines 118-124). -/
def token (b : Int) (tok : Str) : Int :=
  match partition ':' tok with
  | (_, none) => b
  | (k, some v) =>
    if strip k = "batch_size".toList then
      match parseInt (strip v) with
      | some n => n
      | none => b
    else b

/-- The batch size after an initialisation message (lines 117-124). -/
def parseBatch (b : Int) (s : Str) : Int := (splitOn ',' s).foldl token b

/-- The string i-PI sends for a parameter string and a batch size (sockets.py:372-377). -/
def announce (pars : Str) (n : Nat) : Str :=
  if n > 1 then pars ++ (if strip pars = [] then [] else [',']) ++ " batch_size:".toList ++ showNat n else pars

variable {P R : Type}

/-- One turn of the loop (lines 99-285). -/
def step (cfg : Cfg P R) (s : St P R) : Msg P → Except Crash (St P R × Option (Reply R))
  | .status =>
    if !s.fInit then .ok (s, some .needinit)
    else if s.fData then .ok (s, some .havedata)
    else .ok (s, some .ready)
  | .init str => .ok ({ s with batchN := parseBatch s.batchN str, fInit := true }, none)
  | .pos ps =>
    if s.batchN > 1 then
      if (ps.length : Int) = s.batchN then .ok ({ s with batch := some (ps.map cfg.eval), fData := true }, none)
      else .error .desync
    else
      match ps with
      | [p] =>
        match s.single with
        | none => .ok ({ s with single := some (p, cfg.eval p), fData := true }, none)
        | some (q, _) =>
          -- an empty position array is resized again (line 165)
          if cfg.natoms q ≠ 0 ∧ cfg.natoms q ≠ cfg.natoms p then .error .natChanged
          else .ok ({ s with single := some (p, cfg.eval p), fData := true }, none)
      | _ => .error .desync
  | .getforce =>
    if s.batchN > 1 then
      match s.batch with
      | none => .error .typeError
      | some rs => .ok ({ s with fData := false }, some (.forces rs))
    else
      match s.single with
      | none => .error .nameError
      | some (p, r) => if cfg.good p r then .ok ({ s with fData := false }, some (.forces [r])) else .error .badSize
  | .exit => .ok ({ s with exited := true }, none)
  | .other => .ok (s, none)

/-- The driver fed with a list of messages; replies in order. After EXIT nothing is read any more. -/
def run (cfg : Cfg P R) : St P R → List (Msg P) → Except Crash (St P R × List (Reply R))
  | s, [] => .ok (s, [])
  | s, m :: ms =>
    if s.exited then .ok (s, [])
    else
      match step cfg s m with
      | .error e => .error e
      | .ok (s', r) =>
        match run cfg s' ms with
        | .error e => .error e
        | .ok (s'', rs) => .ok (s'', r.toList ++ rs)

end Verif.Driver
