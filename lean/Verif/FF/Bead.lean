/-!
# One force evaluation

Model of `ForceBead.queue` and `ForceBead.get_all` (`/repo/ipi/engine/forces.py` L126-209) together
with the cached result `_ufvx` (L95-101), which is out of date once the positions or the cell
change.  Positions and cell together are a value of `P`, the forcefield is a function `F`; the
request holds a copy of the positions (`/repo/ipi/engine/forcefields.py` L164).  One thread; waiting
for the result is left out.
-/

namespace Verif.Bead

/-- Positions, cached result, whether it is out of date, and the pending request. -/
structure St (P R : Type) where
  pos : P
  cache : R
  tainted : Bool
  req : Option P

inductive Op (P : Type) where
  | queue
  | move (p : P)
  | read

variable {P R : Type}

/-- `queue` (L126-141): asks for an evaluation if none is pending and the result is out of date. -/
def queue (s : St P R) : St P R :=
  if s.req.isNone && s.tainted then { s with req := some s.pos } else s

/-- A change of the positions. -/
def move (p : P) (s : St P R) : St P R := { s with pos := p, tainted := true }

/-- A read of the result: `get_all` (L143-209) if it is out of date, and what is returned. -/
def read (F : P → R) (s : St P R) : St P R × R :=
  if s.tainted then
    let s := queue s
    let r := F (s.req.getD s.pos)
    ({ s with cache := r, tainted := false, req := none }, r)
  else (s, s.cache)

/-- One operation. -/
def step (F : P → R) (s : St P R) : Op P → St P R
  | .queue => queue s
  | .move p => move p s
  | .read => (read F s).1

/-- A history. -/
def run (F : P → R) (s : St P R) (l : List (Op P)) : St P R := l.foldl (step F) s

/-- Before anything was asked for. -/
def start (p : P) (r : R) : St P R := { pos := p, cache := r, tainted := true, req := none }

end Verif.Bead
