import Mathlib.Analysis.SpecialFunctions.Log.Basic
import Mathlib.Logic.Function.Basic
import Mathlib.Data.Nat.Notation

/-!
# Kinetic Monte Carlo of vacancies on a lattice

Models `ipi/engine/motion/al6xxx_kmc.py`: the lattice and its neighbours (lines 124-160), the occupations (249-270), `unique_idx`
(434-460) and `step` (503-678).

Simplifications: the energy and the positions of a relaxed occupation are functions of the occupation (the optimiser is reset before
each use, 322, and starts from the positions given by `unique_idx`); the cache is in `Verif.Run.KmcCache`; the numbers of the cell (126-128)
are the exact ones of an fcc lattice; sites beyond the number of sites do not occur.
-/

namespace Verif.Kmc

/-- What is at a site: `S`, `M`, `A`, `V` (246-247). -/
inductive Sp
  | S | M | A | V
  deriving DecidableEq

/-- `ncell**3` sites, of which `natoms` are occupied: `nsi` silicon, `nmg` magnesium, the rest aluminium (97-104). -/
structure Par where
  nsites : ℕ
  nvac : ℕ
  nsi : ℕ
  nmg : ℕ

def Par.natoms (p : Par) : ℕ := p.nsites - p.nvac

/-- The string `names` (249-256). -/
def names (p : Par) (i : ℕ) : Sp :=
  if i < p.nsi then .S else if i < p.nsi + p.nmg then .M else if i < p.natoms then .A else .V

/-- Assignment with an index array, `a[idx] = v` for the first `n` entries: in order, later ones overwrite. -/
def scatter {α : Type} (base : ℕ → α) (idx : ℕ → ℕ) (v : ℕ → α) : ℕ → ℕ → α
  | 0 => base
  | n + 1 => Function.update (scatter base idx v n) (idx n) (v n)

/-- `idx`: site of each atom, `ridx`: atom at each site, `state`: what is at each site. -/
structure St where
  idx : ℕ → ℕ
  ridx : ℕ → ℕ
  state : ℕ → Sp

/-- `bind` (257-267). -/
def init (p : Par) (idx : ℕ → ℕ) : St :=
  { idx := idx
    ridx := scatter (fun _ => 0) idx (fun i => i) p.nsites
    state := scatter (names p) idx (names p) p.nsites }

/-- `unique_idx(state)` after `k` sites (434-460): the four counters and the array. -/
structure Cnt where
  ksi : ℕ
  kmg : ℕ
  kal : ℕ
  kvac : ℕ
  idx : ℕ → ℕ

def uniqStep (c : Cnt) (s : Sp) (k : ℕ) : Cnt :=
  match s with
  | .S => { c with idx := Function.update c.idx c.ksi k, ksi := c.ksi + 1 }
  | .M => { c with idx := Function.update c.idx c.kmg k, kmg := c.kmg + 1 }
  | .A => { c with idx := Function.update c.idx c.kal k, kal := c.kal + 1 }
  | .V => { c with idx := Function.update c.idx c.kvac k, kvac := c.kvac + 1 }

def uniqFrom (p : Par) (state : ℕ → Sp) : ℕ → Cnt
  | 0 => ⟨0, p.nsi, p.nsi + p.nmg, p.natoms, fun _ => 0⟩
  | k + 1 => uniqStep (uniqFrom p state k) (state k) k

def uniqueIdx (p : Par) (state : ℕ → Sp) : ℕ → ℕ := (uniqFrom p state p.nsites).idx

/-- `state[svac], state[sneigh] = state[sneigh], state[svac]` (535-536, 632). -/
def swap {α : Type} (f : ℕ → α) (a b : ℕ) : ℕ → α := Function.update (Function.update f a (f b)) b (f a)

/-- Exceptions. -/
inductive Err
  | vacancy
  | index
  deriving DecidableEq

/-- The events of one vacancy (527-531): its neighbours that are no vacancies. -/
def eventsOf (s : St) (neigh : ℕ → List ℕ) (svac : ℕ) : List (ℕ × ℕ) :=
  ((neigh svac).filter fun j => !decide (s.state j = .V)).map fun j => (svac, j)

/-- All events (518-592): the loop over the vacancies `ivac = natoms, …`, which stops if a vacancy is at a site that is none (521-524). -/
def events (p : Par) (neigh : ℕ → List ℕ) (s : St) : ℕ → Except Err (List (ℕ × ℕ))
  | 0 => .ok []
  | k + 1 =>
    match events p neigh s k with
    | .error e => .error e
    | .ok l =>
      if s.state (s.idx (p.natoms + k)) ≠ .V then .error .vacancy
      else .ok (l ++ eventsOf s neigh (s.idx (p.natoms + k)))

/-- Rate of an event (606-613): `e0`, `e1` energies of the two occupations, `bar`, `pre` barrier and prefactor of the atom that moves. -/
noncomputable def rate (kT : ℝ) (bar pre : Sp → ℝ) (E : (ℕ → Sp) → ℝ) (st : ℕ → Sp) (e : ℕ × ℕ) : ℝ :=
  let e0 := E st
  let e1 := E (swap st e.1 e.2)
  let ets := 0.5 * (e0 + e1) + bar (st e.2)
  pre (st e.2) * Real.exp (-(ets - e0) / kT)

/-- The selection (616-619): `isel` goes up while `fpick > crates[isel]`; `acc` is the cumulative rate so far. -/
noncomputable def pick (fpick : ℝ) : ℝ → List ℝ → Except Err ℕ
  | _, [] => .error .index
  | acc, r :: l => if fpick > acc + r then (pick fpick (acc + r) l).map (· + 1) else .ok 0

/-- The time spent (620). -/
noncomputable def dwell (cdf u : ℝ) : ℝ := -1 / cdf * Real.log (1 - u)

/-- The swap (626-634). -/
def apply (s : St) (e : ℕ × ℕ) : St :=
  { idx := swap s.idx (s.ridx e.1) (s.ridx e.2)
    ridx := swap s.ridx e.1 e.2
    state := swap s.state e.1 e.2 }

/-- A step (503-646): `u1`, `u2` random numbers.  Returns the new state and the time. -/
noncomputable def step (p : Par) (neigh : ℕ → List ℕ) (kT : ℝ) (bar pre : Sp → ℝ) (E : (ℕ → Sp) → ℝ) (u1 u2 : ℝ) (s : St) :
    Except Err (St × ℝ) :=
  match events p neigh s p.nvac with
  | .error e => .error e
  | .ok l =>
    let rates := l.map (rate kT bar pre E s.state)
    match pick (u1 * rates.sum) 0 rates with
    | .error e => .error e
    | .ok isel =>
      match l[isel]? with
      | none => .error .index
      | some e => .ok (apply s e, dwell rates.sum u2)

/-- The new positions before the minimum image (656-673): atom `i` gets the relaxed position, in the order of `unique_idx`, of the atom
at its site.  `Qr` are the relaxed positions of an occupation in this order. -/
def newPos {X : Type} (p : Par) (Qr : (ℕ → Sp) → ℕ → X) (s : St) (i : ℕ) : X :=
  Qr s.state (scatter (fun _ => 0) (uniqueIdx p s.state) (fun k => k) p.nsites (s.idx i))

/-! ## The lattice -/

/-- Component of a difference of sites after `array_pbc` (150): scaled coordinates are rounded, halves to the even number. -/
def wrap (n : ℕ) (d : ℤ) : ℤ := if 2 * d > n then d - n else if 2 * d < -(n : ℤ) then d + n else d

/-- Four times the square of the distance in units of `a0²`: for an fcc lattice `Σ m² + (Σ m)²`. -/
def dist2 (m : ℤ × ℤ × ℤ) : ℤ := m.1 ^ 2 + m.2.1 ^ 2 + m.2.2 ^ 2 + (m.1 + m.2.1 + m.2.2) ^ 2

/-- The sites in the order of `meshgrid` (133-141). -/
def coord (n i : ℕ) : ℕ × ℕ × ℕ := (i / (n * n), i / n % n, i % n)

def diff (n i j : ℕ) : ℤ × ℤ × ℤ :=
  (wrap n ((coord n j).1 - (coord n i).1 : ℤ), wrap n ((coord n j).2.1 - (coord n i).2.1 : ℤ), wrap n ((coord n j).2.2 - (coord n i).2.2 : ℤ))

/-- `np.dot(rij[j], rij[j]) < a02` with `a02 = 1.01 * 0.5 * a0**2` (144, 153): four times as much is below 2.02, so at most 2. -/
def near (n i j : ℕ) : Bool := dist2 (diff n i j) ≤ 2

/-- The row of a site in `neigh` (142-158): twelve entries, zero where there are fewer neighbours; `IndexError` for more.  The order of the
loops gives first the lower sites (found when the outer loop is at `i`), then the higher ones. -/
def neighbours (n i : ℕ) : List ℕ :=
  ((List.range (n ^ 3)).filter fun j => decide (j ≠ i) && near n i j)

def neigh (n i : ℕ) : List ℕ := neighbours n i ++ List.replicate (12 - (neighbours n i).length) 0

end Verif.Kmc
