import Verif.Phys.Estim
import Verif.Run.Readback

/-!
# Perturbed path integrals

Model of `/repo/tools/py/energies_ppi.py` and `/repo/tools/py/heat_capacity_ppi.py` with exact real
numbers.  The paths have `n + 1` beads.  The fortran variants of the sums are left out, and so is the
text of the numbers.  The frames of the trajectories are given (`read_file` is modelled elsewhere).
`total_energy_ppi.py` (L133), `kinetic_energy_ppi.py` and `potential_energy_ppi.py` call `read_file`
with an argument it does not have and end with a `TypeError`; they are not modelled.
-/

namespace Verif.Ppi

open Finset Verif.Estim Verif.Text

variable {n N : ℕ}

/-- What is read for one frame: positions and forces of the beads, the potential and the time. -/
structure Frame (n N : ℕ) where
  q : Conf n N
  f : Conf n N
  U : ℝ
  time : ℝ

/-- The constants: `Constants.kb` and `Constants.hbar` (both one in `/repo/ipi/utils/units.py`), the
temperature, the masses, the number of frames left out and the size of the unit asked for
(`unit_to_user` divides by it). -/
structure Setup (N : ℕ) where
  kb : ℝ
  hbar : ℝ
  temp : ℝ
  m : Fin N → ℝ
  skip : ℕ
  unit : ℝ

/-- `beta` (`energies_ppi.py` L109). -/
noncomputable def Setup.beta (S : Setup N) : ℝ := 1 / (S.kb * S.temp)

/-- `f2` (L165-171). -/
noncomputable def f2 (m : Fin N → ℝ) (x : Frame n N) : ℝ :=
  ∑ b, ∑ a, (∑ d, x.f (b, a, d) * x.f (b, a, d)) / m a

/-- `KPa` with given constants (L172-189, L200-201): first the spring that closes the path. -/
noncomputable def kPa (beta hbar : ℝ) (m : Fin N → ℝ) (x : Frame n N) : ℝ :=
  let const1 := 0.5 * ((n + 1 : ℕ) : ℝ) / (beta * hbar) ^ 2
  let const2 := 1.5 * ((n + 1 : ℕ) : ℝ) / beta
  (0 - (∑ a, (∑ d, (x.q (0, a, d) - x.q (Fin.last n, a, d)) * (x.q (0, a, d) - x.q (Fin.last n, a, d)))
        * m a)
      - ∑ b : Fin n, ∑ a,
        (∑ d, (x.q (b.succ, a, d) - x.q (b.castSucc, a, d)) * (x.q (b.succ, a, d) - x.q (b.castSucc, a, d)))
          * m a) * const1
    + const2 * N

/-- `KVir` (L190-199, L202-203). -/
noncomputable def kVir (beta : ℝ) (x : Frame n N) : ℝ :=
  (∑ a, ∑ b, ∑ d, ((∑ b', x.q (b', a, d)) / ((n + 1 : ℕ) : ℝ) - x.q (b, a, d)) * x.f (b, a, d))
      / (2 * ((n + 1 : ℕ) : ℝ))
    + 1.5 / beta * N

/-- The sums over the frames of both scripts (L64-71; `heat_capacity_ppi.py` L62-70). -/
structure Sums where
  kpa : ℝ
  kvir : ℝ
  u : ℝ
  f2 : ℝ
  f2kpa : ℝ
  f2u : ℝ
  e2 : ℝ
  f2e2 : ℝ

/-- All zero. -/
noncomputable def Sums.zero : Sums := ⟨0, 0, 0, 0, 0, 0, 0, 0⟩

/-- One frame is added (L224-229; `heat_capacity_ppi.py` L199-205). -/
noncomputable def Sums.add (S : Setup N) (s : Sums) (x : Frame n N) : Sums :=
  let F := Ppi.f2 S.m x
  let K := kPa S.beta S.hbar S.m x
  let V := kVir S.beta x
  ⟨s.kpa + K, s.kvir + V, s.u + x.U, s.f2 + F, s.f2kpa + F * K, s.f2u + F * x.U,
    s.e2 + (K + x.U) ^ 2, s.f2e2 + F * (K + x.U) ^ 2⟩

/-- `dU` before the conversion (L234-235; `heat_capacity_ppi.py` L210-211). -/
noncomputable def dU (n : ℕ) (S : Setup N) (s : Sums) (norm : ℝ) : ℝ :=
  (2 * s.f2 / norm - S.beta * (s.f2u / norm - s.f2 * s.u / norm ^ 2))
    * (S.hbar ^ 2 * S.beta ^ 2 / (24 * ((n + 1 : ℕ) : ℝ) ^ 3))

/-- `dK` before the conversion (L238-241). -/
noncomputable def dK (n : ℕ) (S : Setup N) (s : Sums) (norm : ℝ) : ℝ :=
  ((S.kb * S.temp + s.kpa / norm) * s.f2 / norm - s.f2kpa / norm)
    * (S.hbar ^ 2 * S.beta ^ 3 / (24 * ((n + 1 : ℕ) : ℝ) ^ 3))

/-- `dK` of `heat_capacity_ppi.py` (L213-214). -/
noncomputable def dK' (n : ℕ) (S : Setup N) (s : Sums) (norm : ℝ) : ℝ :=
  (s.f2 / norm - S.beta * (s.f2kpa / norm - s.f2 * s.kpa / norm ^ 2))
    * (S.hbar ^ 2 * S.beta ^ 2 / (24 * ((n + 1 : ℕ) : ℝ) ^ 3))

/-- `C` (`heat_capacity_ppi.py` L216-222). -/
noncomputable def heat (n : ℕ) (S : Setup N) (s : Sums) (norm : ℝ) : ℝ :=
  (s.e2 / norm - ((s.kpa + s.u) / norm) ^ 2 + (2 / S.beta) * s.kpa / norm
      - 1.5 * ((n + 1 : ℕ) : ℝ) * N / S.beta ^ 2) * (S.kb * S.beta ^ 2)

/-- `dC` (`heat_capacity_ppi.py` L224-234). -/
noncomputable def dC (n : ℕ) (S : Setup N) (s : Sums) (norm : ℝ) : ℝ :=
  let const4 := S.hbar ^ 2 * S.beta ^ 2 / (24 * ((n + 1 : ℕ) : ℝ) ^ 3)
  2 * (5 + 3 * S.beta * (s.kpa + s.u) / norm) * S.beta * s.f2 * const4 / norm
    - 2 * (3 + S.beta * (s.kpa + s.u) / norm) * S.beta * (dK' n S s norm + dU n S s norm)
    + 2 * S.beta * dK' n S s norm
    - const4 * (s.f2e2 / norm - s.f2 * s.e2 / norm ^ 2) * S.beta ^ 3

/-- One row of `prefix.energies.dat` (L248-263). -/
structure ERow where
  time : ℝ
  total : ℝ
  totalVir : ℝ
  totalCorr : ℝ
  pot : ℝ
  potPlain : ℝ
  potCorr : ℝ
  kin : ℝ
  kinVir : ℝ
  kinCorr : ℝ

/-- The numbers of a row (L234-263). -/
noncomputable def eRow (n : ℕ) (S : Setup N) (time : ℝ) (s : Sums) (norm : ℝ) : ERow :=
  let du := dU n S s norm / S.unit
  let dk := dK n S s norm / S.unit
  let u := s.u / norm / S.unit
  let k := s.kvir / norm / S.unit
  ⟨time, k + u + dk + du, k + u, dk + du, u + du, u, du, k + dk, k, dk⟩

/-- One row of `prefix.heat_capacity.dat` (`heat_capacity_ppi.py` L236-237): time, sum, `C`, `dC`. -/
noncomputable def cRow (n : ℕ) (S : Setup N) (time : ℝ) (s : Sums) (norm : ℝ) : ℝ × ℝ × ℝ × ℝ :=
  (time, heat n S s norm + dC n S s norm, heat n S s norm, dC n S s norm)

/-- The loop of both scripts (L133-266; `heat_capacity_ppi.py` L126-241): the rows that are written
by `row`, from the frame `ifr` on with the sums and the time at the end of the frames left out. -/
noncomputable def loop {R : Type} (S : Setup N) (row : ℝ → Sums → ℝ → R) (ifr : ℕ) (time0 : ℝ)
    (s : Sums) : List (Frame n N) → List R
  | [] => []
  | x :: xs =>
      if ifr < S.skip then loop S row (ifr + 1) x.time s xs
      else
        let s' := s.add S x
        row (x.time - time0) s' (((ifr + 1 - S.skip : ℕ) : ℝ)) :: loop S row (ifr + 1) time0 s' xs

/-- `energies` (L42-266). -/
noncomputable def energies (S : Setup N) (xs : List (Frame n N)) : List ERow :=
  loop S (eRow n S) 0 0 Sums.zero xs

/-- `heatCapacity` (`heat_capacity_ppi.py` L39-241). -/
noncomputable def heatCapacity (S : Setup N) (xs : List (Frame n N)) : List (ℝ × ℝ × ℝ × ℝ) :=
  loop S (cRow n S) 0 0 Sums.zero xs

/-! ### The header of the property file -/

/-- How reading the header ends early: `EOFError`, `IndexError` of `line.split()[0]`, and
`sys.exit(1)` without units. -/
inductive Stop where
  | eof
  | index
  | units
  deriving DecidableEq, Repr

/-- The lines with `#` as the first word (L284-295). -/
def headLines : List Str → Except Stop (List Str)
  | [] => .error .eof
  | l :: ls =>
      match splitWs l with
      | [] => .error .index
      | w :: _ =>
          if w = ['#'] then
            match headLines ls with
            | .ok hs => .ok (l :: hs)
            | .error e => .error e
          else .ok []

/-- `[a-z]`. -/
def lower (c : Char) : Bool := 'a' ≤ c && c ≤ 'z'

/-- `key\{[a-z]*\}` at the beginning of the text: what is between the braces (L300-301, L308, L311). -/
def unitAt (key s : Str) : Option Str :=
  match Readback.dropPrefix? (key ++ ['{']) s with
  | none => none
  | some r =>
      if (r.dropWhile lower).head? = some '}' then some (r.takeWhile lower) else none

/-- `search` of the pattern: the first place where it matches. -/
def search (key : Str) : Str → Option Str
  | [] => none
  | c :: s =>
      match unitAt key (c :: s) with
      | some u => some u
      | none => search key s

/-- The unit and the number of the line, for one of the patterns: the last line with a match counts
(L303-314). -/
def lookUp (key : Str) : Nat → List Str → Option (Str × Nat)
  | _, [] => none
  | i, l :: ls =>
      match lookUp key (i + 1) ls with
      | some r => some r
      | none => (search key l).map fun u => (u, i)

def kPot : Str := "potential".toList
def kTime : Str := "time".toList

/-- `extractUnits` (L269-319): units and column of time and potential. -/
def extractUnits (ls : List Str) : Except Stop ((Str × Nat) × (Str × Nat)) :=
  match headLines ls with
  | .error e => .error e
  | .ok hs =>
      match lookUp kTime 0 hs, lookUp kPot 0 hs with
      | some t, some p => .ok (t, p)
      | _, _ => .error .units

/-- The lines of the header as they are written (`/repo/ipi/engine/outputs.py` L231-261). -/
def headerLines (icol : Nat) : List Readback.Item → List Str
  | [] => []
  | i :: is => Readback.headText icol i :: headerLines (icol + i.size) is

end Verif.Ppi
