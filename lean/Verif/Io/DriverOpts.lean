import Verif.Io.Values

/-!
# The options of the python driver

Model of `read_args_kwargs` (`/repo/ipi/utils/io/inputs/__init__.py` L28-48), which reads the
text of the option `-o` of `/repo/drivers/py/driver.py` (L544), and of the call
`cls(*driver_args, **driver_kwargs)` (L549) for a class whose constructor has named parameters
followed by `*args, **kwargs`, such as `/repo/ipi/pes/harmonic.py` L25.
-/

namespace Verif.DriverOpts

open Verif.Text Verif.Values

variable {F : Type}

/-- The body of the loop over the tokens (L41-47). -/
def step (ft : FloatText F) (acc : List (Val F) × List (Str × Val F)) (token0 : Str) :
    List (Val F) × List (Str × Val F) :=
  let token := strip token0
  match partition '=' token with
  | (key, some value) => (acc.1, insert acc.2 (strip key) (readValue ft value))
  | (_, none) => if 0 < token.length then (acc.1 ++ [readValue ft token], acc.2) else acc

/-- `read_args_kwargs` (L28-48). -/
def readArgsKwargs (ft : FloatText F) (s : Str) : List (Val F) × List (Str × Val F) :=
  (splitOn ',' s).foldl (step ft) ([], [])

/-- The exceptions. -/
inductive Err | typeError
  deriving DecidableEq, Repr

/-- What the body of the constructor sees: the named parameters, `args` and `kwargs`. -/
structure Bound (V : Type) where
  named : List (Str × V)
  args : List V
  kwargs : List (Str × V)

/-- The value of one named parameter (python's rules for calls): by position, by name, or the
default. -/
def param {V : Type} (args : List V) (kw : List (Str × V)) (p : Str × Option V) (i : Nat) :
    Except Err (Str × V) :=
  match args[i]? with
  | some v => .ok (p.1, v)
  | none =>
    match kw.lookup p.1 with
    | some v => .ok (p.1, v)
    | none =>
      match p.2 with
      | some v => .ok (p.1, v)
      | none => .error .typeError

/-- The loop over the named parameters, numbered from `i`. -/
def fill {V : Type} (args : List V) (kw : List (Str × V)) :
    Nat → List (Str × Option V) → Except Err (List (Str × V))
  | _, [] => .ok []
  | i, p :: ps =>
    match param args kw p i with
    | .error e => .error e
    | .ok v =>
      match fill args kw (i + 1) ps with
      | .error e => .error e
      | .ok l => .ok (v :: l)

/-- `cls(*args, **kw)` for a constructor `__init__(self, params…, *args, **kwargs)` (python's
rules for calls). -/
def bindCall {V : Type} (params : List (Str × Option V)) (args : List V) (kw : List (Str × V)) :
    Except Err (Bound V) :=
  if kw.any (fun e => e.1 == "self".toList || ((params.take args.length).map (·.1)).contains e.1)
  then .error .typeError
  else
    match fill args kw 0 params with
    | .error e => .error e
    | .ok l => .ok ⟨l, args.drop params.length,
        kw.filter (fun e => !(params.map (·.1)).contains e.1)⟩

/-- The driver's use of its options (`driver.py` L544-549). -/
def start (ft : FloatText F) (params : List (Str × Option (Val F))) (s : Str) :
    Except Err (Bound (Val F)) :=
  bindCall params (readArgsKwargs ft s).1 (readArgsKwargs ft s).2

end Verif.DriverOpts
