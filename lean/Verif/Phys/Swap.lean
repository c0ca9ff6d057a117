import Mathlib.Analysis.SpecialFunctions.Exp
import Mathlib.Analysis.Real.Sqrt
import Mathlib.Algebra.BigOperators.Fin

/-!
# Monte Carlo exchanges of atoms

Model of `/repo/ipi/engine/motion/alchemy.py` (`AlchemyMC`: two atoms exchange their identities) and
`/repo/ipi/engine/motion/atomswap.py` (`AtomSwap`: two atoms exchange their positions), with exact
real numbers.  The number of attempts is Poisson distributed and is a list here; random numbers are
arguments.
-/

namespace Verif.Swap

open Finset

variable {nb N : ℕ} {S : Type}

/-- Bead or normal mode, atom, direction. -/
abbrev Cfg (nb N : ℕ) := Fin nb → Fin N → Fin 3 → ℝ

/-! ## The choice of the pair -/

/-- The choice of `j` (`alchemy.py` L121-125, `atomswap.py` L106-110): integers below the length of
the list are drawn until the atom has another name than the one at `i`.  `name` gives the names of
the atoms in the list; the result is the choice and the draws not used, and `none` means that the
loop still runs when the draws are used up. -/
def pickJ [DecidableEq S] {n : ℕ} (name : Fin n → S) (i : Fin n) : List (Fin n) → Option (Fin n × List (Fin n))
  | [] => none
  | j :: r => if name i = name j then pickJ name i r else some (j, r)

/-! ## Alchemical exchanges -/

/-- What an alchemical exchange changes: names, masses, momenta, and the counter `ealc`. -/
structure Alc (nb N : ℕ) (S : Type) where
  name : Fin N → S
  m : Fin N → ℝ
  p : Cfg nb N
  ealc : ℝ

/-- `atomspring` (`alchemy.py` L97-112): the springs of one atom without its mass, from the normal
mode positions and the frequencies of closed paths; the centroid is left out. -/
noncomputable def atomspring (w2 : Fin nb → ℝ) (q : Cfg nb N) (a : Fin N) : ℝ :=
  (∑ b : Fin nb, if (b : ℕ) = 0 then 0 else w2 b * ∑ d, q b a d ^ 2) * (1 / 2)

/-- `difspring` (L128-130). -/
def dif (spr m : Fin N → ℝ) (i j : Fin N) : ℝ := (spr i - spr j) * (m j - m i)

/-- The accepted exchange (L138-157). -/
noncomputable def Alc.exchange (spr : Fin N → ℝ) (i j : Fin N) (s : Alc nb N S) : Alc nb N S :=
  let ratio := s.m i / s.m j
  { name := fun a => if a = i then s.name j else if a = j then s.name i else s.name a
    m := fun a => if a = i then s.m i / ratio else if a = j then s.m j * ratio else s.m a
    p := fun b a d => if a = i then s.p b i d / √ratio else if a = j then s.p b j d * √ratio else s.p b a d
    ealc := s.ealc + -dif spr s.m i j }

/-- One attempt (L121-157) with the random number `u`; `β` is `betaP`. -/
noncomputable def Alc.attempt (β : ℝ) (spr : Fin N → ℝ) (i j : Fin N) (u : ℝ) (s : Alc nb N S) : Alc nb N S :=
  if Real.exp (-β * dif spr s.m i j) > u then s.exchange spr i j else s

/-- All attempts of a step; `atomspring` is computed once at the beginning. -/
noncomputable def Alc.step (β : ℝ) (spr : Fin N → ℝ) (tries : List (Fin N × Fin N × ℝ)) (s : Alc nb N S) : Alc nb N S :=
  tries.foldl (fun s t => s.attempt β spr t.1 t.2.1 t.2.2) s

/-- `nm.vspring` without bosons (`/repo/ipi/engine/normalmodes.py` L731-795), atom by atom: closed paths
have the squared frequencies `w2`, open ones `ow2`. -/
noncomputable def vspring (op : Fin N → Bool) (w2 ow2 : Fin nb → ℝ) (m : Fin N → ℝ) (q : Cfg nb N) : ℝ :=
  ∑ a, ∑ k, (if op a then ow2 k else w2 k) * m a * (∑ d, q k a d ^ 2) * (1 / 2)

/-- `nm.kin` (`normalmodes.py` L920-945): `C` is the transformation to normal modes, `f` the mass
factors. -/
noncomputable def kin (C : Fin nb → Fin nb → ℝ) (f : Fin nb → ℝ) (m : Fin N → ℝ) (p : Cfg nb N) : ℝ :=
  ∑ k, ∑ a, ∑ d, (∑ b, C k b * p b a d) ^ 2 / (m a * f k) * (1 / 2)

/-! ## Exchanges of positions -/

/-- The positions and the counter. -/
structure Pos (nb N : ℕ) where
  q : Cfg nb N
  ealc : ℝ

/-- `dbeads.q` (`atomswap.py` L117-120). -/
def swapped (i j : Fin N) (q : Cfg nb N) : Cfg nb N :=
  fun b a d => if a = j then q b i d else if a = i then q b j d else q b a d

/-- One attempt (`atomswap.py` L105-133); `pot` is `forces.pot`, the physical potential summed over the
beads. -/
noncomputable def Pos.attempt (β : ℝ) (pot : Cfg nb N → ℝ) (i j : Fin N) (u : ℝ) (s : Pos nb N) : Pos nb N :=
  let old := pot s.q
  let new := pot (swapped i j s.q)
  if Real.exp (-β * (new - old)) > u then { q := swapped i j s.q, ealc := s.ealc + -(new - old) } else s

/-- All attempts of a step. -/
noncomputable def Pos.step (β : ℝ) (pot : Cfg nb N → ℝ) (tries : List (Fin N × Fin N × ℝ)) (s : Pos nb N) : Pos nb N :=
  tries.foldl (fun s t => s.attempt β pot t.1 t.2.1 t.2.2) s

end Verif.Swap
