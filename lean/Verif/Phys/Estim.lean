import Mathlib.Analysis.SpecialFunctions.Pow.Real
import Mathlib.Analysis.Real.Sqrt
import Mathlib.Data.Fintype.BigOperators
import Mathlib.Algebra.BigOperators.Fin

/-!
# Estimators of `ipi/engine/properties.py`

Real numbers instead of floating point numbers.  A configuration of `n + 1` beads of `N` atoms is a
function of bead, atom and direction.  Particles are distinguishable (`nm.bosons` is empty) and
arguments that are not numbers where a number is needed are left out.
-/

namespace Verif.Estim

open Finset

/-- The exceptions raised by the estimators. -/
inductive Err
  | index
  | value
  | attribute
  | zeroDivision
deriving DecidableEq

/-- Positions, momenta or forces of all beads. -/
abbrev Conf (n N : ℕ) := Fin (n + 1) × Fin N × Fin 3 → ℝ

/-- The argument `atom` of the estimators: empty, an integer or another string. -/
inductive Sel
  | all
  | idx (k : ℤ)
  | label (s : String)

/-- ipi/engine/properties.py L1208-L1215 `if atom != "" and iatom != i and latom != names[i]` (and
the same lines in the other estimators, L1096-L1104 in `get_atom_ids`): an integer leaves the label
empty, another string the index -1. -/
def Sel.takes {N : ℕ} (names : Fin N → String) : Sel → Fin N → Bool
  | .all, _ => true
  | .idx k, i => decide (k = (i : ℤ)) || names i == ""
  | .label s, i => names i == s

/-- ipi/engine/properties.py L1188-L1200: an index that is too large is refused; negative ones are
not. -/
def Sel.check (N : ℕ) : Sel → Except Err Unit
  | .idx k => if (N : ℤ) ≤ k then .error .index else .ok ()
  | _ => .ok ()

section
variable {n N : ℕ}

/-- The selected atoms. -/
def Sel.atoms (names : Fin N → String) (s : Sel) : Finset (Fin N) :=
  univ.filter fun i => s.takes names i = true

/-- ipi/engine/beads.py L207-L211 `get_qc` -/
noncomputable def qc (q : Conf n N) (a : Fin N) (d : Fin 3) : ℝ := (∑ b, q (b, a, d)) / ((n + 1 : ℕ) : ℝ)

/-! ### Kinetic temperature -/

/-- The attributes of a motion used by `get_temp`: `enstype` may be missing, or be `None`.
ipi/engine/motion/motion.py L31-L52, dynamics.py L94. -/
structure Mover (N : ℕ) where
  enstype : Option (Option String)
  fixcom : Bool
  fix : List (Fin N × Fin 3)

/-- ipi/engine/motion/multi.py L15-L41 `MultiMotion.__init__`: only coordinates held by all members
and a centre of mass held by all members; `enstype` is not set.  The list is not empty. -/
def Mover.multi (m : Mover N) (ms : List (Mover N)) : Mover N where
  enstype := none
  fixcom := (m :: ms).all fun k => k.fixcom
  fix := m.fix.filter fun x => (m :: ms).all fun k => decide (x ∈ k.fix)

/-- What the estimators read from the simulation, apart from the momenta. -/
structure MD (n N : ℕ) where
  kB : ℝ
  T : ℝ
  m : Fin N → ℝ
  names : Fin N → String
  mov : Mover N
  nmf : Fin (n + 1) → ℝ
  onmf : Fin (n + 1) → ℝ
  openp : Finset (Fin N)

/-- ipi/engine/normalmodes.py L717-L729 `get_dynm3`: the masses of the normal modes. -/
def MD.dynm (S : MD n N) (b : Fin (n + 1)) (a : Fin N) : ℝ :=
  if a ∈ S.openp ∧ b ≠ 0 then S.m a * S.onmf b else S.m a * S.nmf b

/-- ipi/engine/normalmodes.py L920-L941 `get_kins`, `get_kin` -/
noncomputable def MD.kin (S : MD n N) (pnm : Conf n N) : ℝ :=
  ∑ b, 0.5 * (∑ a, ∑ d, (pnm (b, a, d) / √(S.m a)) ^ 2) / S.nmf b

/-- ipi/engine/properties.py L1585-L1698 `get_kinmd`.  A negative index of bead or mode counts as
none. -/
noncomputable def kinmd (S : MD n N) (s : Sel) (bead nm : Option ℤ) (pnm p : Conf n N) :
    Except Err ℝ :=
  if bead.isSome ∧ nm.isSome then .error .value else do
    s.check N
    if ((n + 1 : ℕ) : ℤ) ≤ bead.getD (-1) then throw .index
    if ((n + 1 : ℕ) : ℤ) ≤ nm.getD (-1) then throw .index
    if 0 ≤ bead.getD (-1) then
      if ∃ a ∈ s.atoms S.names, ∃ b, S.dynm b a ≠ S.dynm 0 a then throw .value
      else return (∑ a ∈ s.atoms S.names,
        (∑ d, p (Fin.ofNat (n + 1) (bead.getD (-1)).toNat, a, d) ^ 2) / (2 * S.m a)) / 1
    else if 0 ≤ nm.getD (-1) then
      return (∑ a ∈ s.atoms S.names,
        (∑ d, pnm (Fin.ofNat (n + 1) (nm.getD (-1)).toNat, a, d) ^ 2)
          / (2 * S.dynm (Fin.ofNat (n + 1) (nm.getD (-1)).toNat) a)) / 1
    else
      match s with
      | .all => return S.kin pnm / ((n + 1 : ℕ) : ℝ)
      | s => return (∑ a ∈ s.atoms S.names, ∑ b, (∑ d, pnm (b, a, d) ^ 2) / (2 * S.dynm b a))
          / ((n + 1 : ℕ) : ℝ)

/-- ipi/engine/properties.py L1151-L1158: the correction for a single normal mode. -/
def heldMode (nb : ℕ) (e0 : ℝ) : Option ℤ → ℝ
  | none => e0
  | some k => if k = 0 then e0 * (nb : ℝ) else if 0 < k then 0 else e0

/-- ipi/engine/properties.py L1136-L1172: the number of held degrees of freedom of the selected
atoms.  `none` for an attribute that is missing. -/
noncomputable def heldDof (S : MD n N) (s : Sel) (nm : Option ℤ) : Option ℝ :=
  let ids := s.atoms S.names
  let e0 : ℝ := if S.mov.enstype = some (some "nvt-cc") then (ids.card : ℝ) * 3
    else if S.mov.fixcom then 3 * (∑ a ∈ ids, S.m a) / (∑ a, S.m a) else 0
  let e1 : ℝ := heldMode (n + 1) e0 nm
  if S.mov.fix = [] then some e1
  else match S.mov.enstype with
    | none => none
    | some t =>
        let nb : ℝ := if t = some "nvt-cc" then ((n + 1 : ℕ) : ℝ) - 1 else ((n + 1 : ℕ) : ℝ)
        some (e1 + ((ids ×ˢ univ).filter fun x : Fin N × Fin 3 => x ∈ S.mov.fix).card * nb)

/-- ipi/engine/properties.py L1108-L1179 `get_temp`.  No selected atom: the division by zero raises
an exception, or gives no number where numpy divides. -/
noncomputable def temp (S : MD n N) (s : Sel) (bead nm : Option ℤ) (pnm p : Conf n N) :
    Except Err ℝ := do
  let ke ← kinmd S s bead nm pnm p
  let ke ← if 0 < S.T then
      match heldDof S s nm with
      | none => throw .attribute
      | some e => pure (ke + 0.5 * S.kB * S.T * e)
    else pure ke
  if (s.atoms S.names).card = 0 then throw .zeroDivision
  return 2 * ke / (S.kB * 3 * ((s.atoms S.names).card : ℝ) * ((n + 1 : ℕ) : ℝ))

/-! ### Quantum kinetic energy -/

/-- ipi/engine/properties.py L1181-L1237 `get_kincv` -/
noncomputable def kincv (kB T : ℝ) (names : Fin N → String) (s : Sel) (q f : Conf n N) :
    Except Err ℝ := do
  s.check N
  return (∑ b, ∑ a, ∑ d, (if s.takes names a then q (b, a, d) - qc q a d else 0) * f (b, a, d))
      * (-0.5 / ((n + 1 : ℕ) : ℝ))
    + ((s.atoms names).card : ℝ) * 1.5 * kB * T

/-- ipi/engine/properties.py L1484-L1489 (and L2361-L2367, L2466-L2471): the squared lengths of the
springs of an atom. -/
def springs (q : Conf n N) (a : Fin N) : ℝ :=
  (∑ b : Fin n, ∑ d, (q (b.succ, a, d) - q (b.castSucc, a, d)) ^ 2)
    + ∑ d, (q (Fin.last n, a, d) - q (0, a, d)) ^ 2

/-- ipi/engine/properties.py L1396-L1434 `get_kintd`, L1460-L1497 `_kinetic_td_distinguishables` -/
noncomputable def kintd (kB T omegan2 : ℝ) (m : Fin N → ℝ) (names : Fin N → String) (s : Sel)
    (q : Conf n N) : Except Err ℝ := do
  s.check N
  return ∑ a ∈ s.atoms names,
    (springs q a * (-0.5 * m a * omegan2 / ((n + 1 : ℕ) : ℝ)) + 1.5 * kB * T * ((n + 1 : ℕ) : ℝ))

/-- The order of the six entries of a kinetic tensor: xx, yy, zz, xy, xz, yz. -/
def voigt : Fin 6 → Fin 3 × Fin 3 := ![(0, 0), (1, 1), (2, 2), (0, 1), (0, 2), (1, 2)]

/-- ipi/engine/properties.py L1769-L1835 `get_kij`, for indices in range. -/
noncomputable def kij (kB T : ℝ) (m : Fin N → ℝ) (q f : Conf n N) (i j : Fin N) (c : Fin 6) : ℝ :=
  (∑ b, (m i * (q (b, i, (voigt c).1) - qc q i (voigt c).1) * f (b, j, (voigt c).2)
      + m j * (q (b, j, (voigt c).2) - qc q j (voigt c).2) * f (b, i, (voigt c).1)))
    * (-0.5 / (((n + 1 : ℕ) : ℝ) * 2 * √(m i * m j)))
  + if i = j ∧ c.1 < 3 then 0.5 * kB * T else 0

/-- ipi/engine/properties.py L1710-L1749 `get_ktens` -/
noncomputable def ktens (kB T : ℝ) (m : Fin N → ℝ) (names : Fin N → String) (s : Sel)
    (q f : Conf n N) : Except Err (Fin 6 → ℝ) := do
  s.check N
  return fun c => ∑ a ∈ s.atoms names, kij kB T m q f a a c

/-- ipi/engine/properties.py L3164-L3176 `Trajectories.get_akcv` -/
noncomputable def akcv (kB T : ℝ) (q f : Conf n N) (x : Fin N × Fin 3) : ℝ :=
  (∑ b, (q (b, x.1, x.2) - qc q x.1 x.2) * f (b, x.1, x.2)) * (-0.5 / ((n + 1 : ℕ) : ℝ)) + 0.5 * kB * T

/-- ipi/engine/properties.py L1912-L1939 `kstress_cv`: entries below the diagonal are zero. -/
noncomputable def kstressCv (m : Fin N → ℝ) (q f : Conf n N) (pc : Fin N × Fin 3 → ℝ)
    (i j : Fin 3) : ℝ :=
  (if i ≤ j then -∑ b, ∑ a, (q (b, a, i) - qc q a i) * f (b, a, j) else 0)
    + if i = j then ((n + 1 : ℕ) : ℝ) * ∑ a, pc (a, i) * (pc (a, i) / m a) else 0

/-- ipi/engine/properties.py L1837-L1881 `get_rg` -/
noncomputable def rg (names : Fin N → String) (s : Sel) (q : Conf n N) : Except Err ℝ := do
  s.check N
  if (s.atoms names).card = 0 then throw .index
  return (∑ a ∈ s.atoms names, √((∑ b, ∑ d, (q (b, a, d) - qc q a d) ^ 2) / ((n + 1 : ℕ) : ℝ)))
    / ((s.atoms names).card : ℝ)

/-! ### Displaced and scaled paths -/

/-- ipi/engine/properties.py L1941-L1949 `opening` -/
noncomputable def opening (b : Fin (n + 1)) : ℝ :=
  (b : ℝ) / ((n + 1 : ℕ) : ℝ) + 0.5 * (1 / ((n + 1 : ℕ) : ℝ) - 1)

/-- ipi/engine/properties.py L1988-L1990: the path of one atom is opened. -/
noncomputable def opened (q : Conf n N) (i : Fin N) (u : Fin 3 → ℝ) : Conf n N := fun x =>
  if x.2.1 = i then q x + opening x.1 * u x.2.2 else q x

/-- ipi/engine/properties.py L1951-L2005 `get_linlin`.  `V` is the sum of the potentials of all beads
(`forces.pot`), `V'` that of the copy of the forces used for displaced paths (`dforces.pot`). -/
noncomputable def linlin (kB T hbar : ℝ) (m : Fin N → ℝ) (names : Fin N → String) (s : Sel)
    (u : Fin 3 → ℝ) (V V' : Conf n N → ℝ) (q : Conf n N) : Except Err ℝ := do
  s.check N
  if (s.atoms names).card = 0 then throw .index
  let beta := 1 / (T * kB)
  return (∑ a ∈ s.atoms names,
      Real.exp (-m a * (∑ d, u d * u d) / (2 * beta * hbar ^ 2))
        * Real.exp (-(V' (opened q a u) - V q) * beta / ((n + 1 : ℕ) : ℝ)))
    / ((s.atoms names).card : ℝ)

/-- ipi/engine/properties.py L2087-L2093: all paths are scaled about their centroids. -/
noncomputable def scaled (q : Conf n N) (s : ℝ) : Conf n N := fun x =>
  qc q x.2.1 x.2.2 * (1 - s) + s * q x

/-- The constants of ipi/engine/properties.py L233-L235: `_DEFAULT_FINDIFF`, `_DEFAULT_FDERROR`,
`_DEFAULT_MINFID`. -/
structure Fd where
  findiff : ℝ := 1e-4
  fderror : ℝ := 1e-5
  minfid : ℝ := 1e-8

/-- One round of the loop of ipi/engine/properties.py L2083-L2127 (`get_yama_estimators`) and
L2166-L2204 (`get_scyama_estimators`, with `V` and `V'` including the fourth order term): `none` to go
on with half the displacement.  `0/0` counts as accepted, as a comparison with `nan` does; a
difference divided by zero is infinite. -/
noncomputable def yamaRound (c : Fd) (auto : Bool) (beta : ℝ) (V V' : Conf n N → ℝ) (q : Conf n N)
    (db : ℝ) : Option (ℝ × ℝ) :=
  let v0 := V q / ((n + 1 : ℕ) : ℝ)
  let vp := V' (scaled q √(1 + db)) / ((n + 1 : ℕ) : ℝ)
  let vm := V' (scaled q √(1 - db)) / ((n + 1 : ℕ) : ℝ)
  let bad : Prop := if vp - vm = 0 then vp + vm - 2 * v0 ≠ 0
    else c.fderror < |(vp + vm - 2 * v0) / (vp - vm)|
  open Classical in
  if auto ∧ bad then
    if c.minfid < db then none else some (0, 0)
  else some (((1 + db) * vp - (1 - db) * vm) / (2 * db) + 0.5 * (3 * (N : ℝ)) / beta,
    ((1 + db) * vp + (1 - db) * vm - 2 * v0) / (db ^ 2 * beta) - 0.5 * (3 * (N : ℝ)) / beta ^ 2)

/-- The loop of `get_yama_estimators`, with a bound on the number of rounds. -/
noncomputable def yamaLoop (c : Fd) (auto : Bool) (beta : ℝ) (V V' : Conf n N → ℝ) (q : Conf n N) :
    ℕ → ℝ → Option (ℝ × ℝ)
  | 0, _ => none
  | k + 1, db => match yamaRound c auto beta V V' q db with
    | some r => some r
    | none => yamaLoop c auto beta V V' q k (db * 0.5)

/-- ipi/engine/properties.py L2053-L2129 `get_yama_estimators` within `k` rounds: a negative
displacement is reduced automatically. -/
noncomputable def yama (c : Fd) (kB T : ℝ) (V V' : Conf n N → ℝ) (q : Conf n N) (fd : ℝ) (k : ℕ) :
    Option (ℝ × ℝ) :=
  yamaLoop c (fd < 0) (1 / (kB * T)) V V' q k |fd|

/-! ### Isotope substitution -/

/-- ipi/engine/properties.py L2459-L2498 `get_isotope_zetatd` -/
noncomputable def zetatd (kB T omegan2 : ℝ) (m : Fin N → ℝ) (names : Fin N → String) (alpha : ℝ)
    (s : Sel) (q : Conf n N) : Except Err (ℝ × ℝ × ℝ) := do
  s.check N
  let betaP := 1 / (kB * T * ((n + 1 : ℕ) : ℝ))
  let spr := fun a => springs q a * (0.5 * (alpha - 1) * m a * omegan2)
  let ni : ℝ := ((s.atoms names).card : ℝ)
  if (s.atoms names).card = 0 then throw .index
  return ((∑ a ∈ s.atoms names, spr a) / ni, (∑ a ∈ s.atoms names, spr a * spr a) / ni,
    (∑ a ∈ s.atoms names, Real.exp (-betaP * spr a)) / ni
      * alpha ^ ((1.5 : ℝ) * (((n + 1 : ℕ) : ℝ) - 1)))

/-- ipi/engine/properties.py L2549-L2554 (L2256-L2263 with `sqrt(1/alpha)`): the path of one atom is
scaled about its centroid. -/
noncomputable def scaledAtom (q : Conf n N) (i : Fin N) (s : ℝ) : Conf n N := fun x =>
  if x.2.1 = i then qc q x.2.1 x.2.2 * (1 - s) + s * q x else q x

/-- ipi/engine/properties.py L2500-L2570 `get_isotope_zetasc` -/
noncomputable def zetasc (kB T : ℝ) (names : Fin N → String) (alpha : ℝ) (s : Sel)
    (V V' : Conf n N → ℝ) (q : Conf n N) : Except Err (ℝ × ℝ × ℝ) := do
  s.check N
  let betaP := 1 / (kB * T * ((n + 1 : ℕ) : ℝ))
  let sc := fun a => V' (scaledAtom q a (1 / √alpha)) - V q
  let ni : ℝ := ((s.atoms names).card : ℝ)
  if (s.atoms names).card = 0 then throw .index
  return ((∑ a ∈ s.atoms names, sc a) / ni, (∑ a ∈ s.atoms names, sc a * sc a) / ni,
    (∑ a ∈ s.atoms names, Real.exp (-betaP * sc a)) / ni)

/-- Sums over the odd replicas, `range(1, nbeads, 2)`. -/
def oddSum (x : Fin (n + 1) → ℝ) : ℝ := ∑ b : Fin (n + 1), if (b : ℕ) % 2 = 1 then x b else 0

/-- ipi/engine/properties.py L2786-L2787, L2820-L2821: `pots[b + 1] - pots[b]` for the even replicas
`b`; the number of replicas is even where this is used. -/
noncomputable def evenDiff (pots : Fin (n + 1) → ℝ) : ℝ :=
  ∑ b : Fin (n + 1), if (b : ℕ) % 2 = 0 then (-pots b + pots (b + 1)) / 3 else 0

/-- ipi/engine/properties.py L2806-L2826 `get_chin_correction`, the last entry: an odd number of
replicas gives an `IndexError`. -/
noncomputable def chinWeight (kB T omegan2 : ℝ) (m : Fin N → ℝ) (pots : Fin (n + 1) → ℝ)
    (f : Conf n N) : Except Err ℝ := do
  if (n + 1) % 2 = 1 then throw .index
  let betaP := 1 / (((n + 1 : ℕ) : ℝ) * kB * T)
  let chin := (∑ a, ∑ d, oddSum fun b => f (b, a, d) ^ 2 / m a) * (4 / 3 * (1 / 12) / omegan2)
  return Real.exp ((chin + evenDiff pots) * -betaP)

/-- ipi/engine/properties.py L2828-L2846 `get_ti_correction`, the last entry. -/
noncomputable def tiWeight (kB T omegan2 : ℝ) (m : Fin N → ℝ) (f : Conf n N) : ℝ :=
  let betaP := 1 / (((n + 1 : ℕ) : ℝ) * kB * T)
  Real.exp ((∑ a, ∑ d, ∑ b, f (b, a, d) ^ 2 / m a) * (1 / 24 / omegan2) * -betaP)

/-- ipi/engine/properties.py L2572-L2691 `get_isotope_zetatd_4th`, the last three entries: without
correction, Takahashi-Imada, Suzuki-Chin. -/
noncomputable def zetatd4 (kB T omegan2 : ℝ) (m : Fin N → ℝ) (names : Fin N → String) (alpha : ℝ)
    (s : Sel) (q f : Conf n N) : Except Err (ℝ × ℝ × ℝ) := do
  s.check N
  let betaP := 1 / (((n + 1 : ℕ) : ℝ) * kB * T)
  let spr := fun a => springs q a * (0.5 * (alpha - 1) * m a * omegan2)
  let chin := fun a => (∑ d, oddSum fun b => f (b, a, d) ^ 2)
    * ((1 / alpha - 1) * 1 / m a * (4 / 3) * (1 / 12) / omegan2)
  let ti := fun a => (∑ d, ∑ b, f (b, a, d) ^ 2)
    * ((1 / alpha - 1) * 1 / m a * (1 / 24) / omegan2)
  let ni : ℝ := ((s.atoms names).card : ℝ)
  let free : ℝ := alpha ^ ((1.5 : ℝ) * (((n + 1 : ℕ) : ℝ) - 1))
  if (s.atoms names).card = 0 then throw .index
  return ((∑ a ∈ s.atoms names, Real.exp (-betaP * spr a)) / ni * free,
    (∑ a ∈ s.atoms names, Real.exp (-betaP * (spr a + ti a))) / ni * free,
    (∑ a ∈ s.atoms names, Real.exp (-betaP * (spr a + chin a))) / ni * free)

/-- ipi/engine/properties.py L2693-L2804 `get_isotope_zetasc_4th`, the last three entries; `pots` and
`f` are the potentials and forces of the replicas. -/
noncomputable def zetasc4 (kB T omegan2 : ℝ) (m : Fin N → ℝ) (names : Fin N → String) (alpha : ℝ)
    (s : Sel) (pots pots' : Conf n N → Fin (n + 1) → ℝ) (f f' : Conf n N → Conf n N)
    (q : Conf n N) : Except Err (ℝ × ℝ × ℝ) := do
  s.check N
  let betaP := 1 / (kB * T * ((n + 1 : ℕ) : ℝ))
  let dq := fun a => scaledAtom q a (1 / √alpha)
  let sc := fun a => (∑ b, pots' (dq a) b) - ∑ b, pots q b
  let chin := fun a => (∑ d, oddSum fun b => f' (dq a) (b, a, d) ^ 2 / alpha - f q (b, a, d) ^ 2)
      * (1 / m a * (4 / 3) * (1 / 12) / omegan2)
    + ∑ b : Fin (n + 1), if (b : ℕ) % 2 = 0 then
        ((-pots' (dq a) b + pots' (dq a) (b + 1)) - (-pots q b + pots q (b + 1))) / 3 else 0
  let ti := fun a => (∑ d, ∑ b, (f' (dq a) (b, a, d) ^ 2 / alpha - f q (b, a, d) ^ 2))
    * (1 / m a * (1 / 24) / omegan2)
  let ni : ℝ := ((s.atoms names).card : ℝ)
  if (s.atoms names).card = 0 then throw .index
  if (n + 1) % 2 = 1 then throw .index
  return ((∑ a ∈ s.atoms names, Real.exp (-betaP * sc a)) / ni,
    (∑ a ∈ s.atoms names, Real.exp (-betaP * (sc a + ti a))) / ni,
    (∑ a ∈ s.atoms names, Real.exp (-betaP * (sc a + chin a))) / ni)

/-- ipi/engine/properties.py L3218-L3270 `Trajectories.get_isotope_zetatd`, the third column. -/
noncomputable def trajZetatd (kB T omegan2 : ℝ) (m : Fin N → ℝ) (names : Fin N → String) (alpha : ℝ)
    (s : Sel) (q : Conf n N) (a : Fin N) : Except Err ℝ := do
  s.check N
  return Real.exp (-1 / (kB * T * ((n + 1 : ℕ) : ℝ))
    * if s.takes names a then springs q a * (0.5 * (alpha - 1) * m a * omegan2) else 0)

/-- ipi/engine/properties.py L3272-L3327 `Trajectories.get_isotope_zetasc`, the third column. -/
noncomputable def trajZetasc (kB T : ℝ) (names : Fin N → String) (alpha : ℝ)
    (s : Sel) (V V' : Conf n N → ℝ) (q : Conf n N) (a : Fin N) : Except Err ℝ := do
  s.check N
  return Real.exp (-1 * (1 / (kB * T)) * if s.takes names a then
    V' (scaledAtom q a (1 / √alpha)) / ((n + 1 : ℕ) : ℝ) - V q / ((n + 1 : ℕ) : ℝ) else 0)

/-! ### Scaled mass kinetic energy -/

/-- `np.log(abs(x))`; `none` is minus infinity. -/
noncomputable def logAbs (x : ℝ) : Option ℝ := open Classical in
  if x = 0 then none else some (Real.log |x|)

/-- Addition of a finite number to a logarithm. -/
noncomputable def addLog (x : ℝ) : Option ℝ → Option ℝ := Option.map fun l => x + l

/-- ipi/utils/mathtools.py L34-L56 `logsumlog`: `none` is a result that is not a number, as for two
vanishing terms. -/
noncomputable def logsumlog : Option ℝ × ℝ → Option ℝ × ℝ → Option (Option ℝ × ℝ)
  | (some la, sa), (some lb, sb) =>
      if lb < la then some (addLog la (logAbs (1 + sb * Real.exp (lb - la))), sa)
      else some (addLog lb (logAbs (1 + sa * Real.exp (la - lb))), sb)
  | (some la, sa), (none, _) => some (some la, sa)
  | (none, _), (some lb, sb) => some (some lb, sb)
  | (none, _), (none, _) => none

/-- ipi/engine/properties.py L2288-L2305, L2396-L2413: the accumulation of the logarithm of a sum. -/
noncomputable def logSum : List (Option ℝ × ℝ) → Option (Option ℝ × ℝ)
  | [] => some (some 0, 1)
  | x :: xs => xs.foldl (fun s y => s.bind fun s => logsumlog s y) (some x)

/-- The centroid virial kinetic energy of an atom, ipi/engine/properties.py L2271-L2280,
L2376-L2384. -/
noncomputable def tcv (kB T : ℝ) (q f : Conf n N) (a : Fin N) : ℝ :=
  (∑ b, ∑ d, (q (b, a, d) - qc q a d) * f (b, a, d)) * (-0.5 / ((n + 1 : ℕ) : ℝ)) + 1.5 * kB * T

/-- ipi/engine/properties.py L2208-L2315 `get_isotope_yama`: the logarithm and kinetic energy of an
atom. -/
noncomputable def scTerm (kB T : ℝ) (alpha : ℝ) (V V' : Conf n N → ℝ) (f' : Conf n N → Conf n N)
    (q : Conf n N) (a : Fin N) : ℝ × ℝ :=
  let dq := scaledAtom q a √(1 / alpha)
  ((V' dq - V q) / (kB * T * ((n + 1 : ℕ) : ℝ)), tcv kB T dq (f' dq) a)

/-- ipi/engine/properties.py L2317-L2423 `get_isotope_thermo`: the logarithm and kinetic energy of an
atom. -/
noncomputable def tdTerm (kB T omegan2 : ℝ) (m : Fin N → ℝ) (alpha : ℝ) (q f : Conf n N) (a : Fin N) :
    ℝ × ℝ :=
  ((alpha - 1) * (springs q a * (0.5 * m a * omegan2)) / (kB * T * ((n + 1 : ℕ) : ℝ)), tcv kB T q f a)

/-- `get_isotope_yama` and `get_isotope_thermo` from the terms of the atoms: the sum of the weights and
that of the weighted kinetic energies (the last three entries, with the sign 1 of the former). -/
noncomputable def smkee (names : Fin N → String) (s : Sel) (term : Fin N → ℝ × ℝ) :
    Except Err (Option (Option ℝ × ℝ) × Option (Option ℝ × ℝ)) := do
  s.check N
  if (s.atoms names).card = 0 then throw .index
  let terms := ((s.atoms names).sort (· ≤ ·)).map term
  return (logSum (terms.map fun x => (some (-x.1), 1)),
    logSum (terms.map fun x => (addLog (-x.1) (logAbs x.2), ((SignType.sign x.2 : SignType) : ℝ))))

end

end Verif.Estim
