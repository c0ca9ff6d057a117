import Mathlib.Analysis.SpecialFunctions.Exp
import Mathlib.Analysis.Real.Sqrt
import Mathlib.Algebra.BigOperators.Fin

/-!
# Replica exchange

Model of `/repo/ipi/engine/smotion/remd.py` and of `ensemble_swap`
(`/repo/ipi/engine/ensembles.py` L29-58), with exact real numbers.
-/

namespace Verif.Remd

open Finset

/-- One replica: its ensemble (temperature, pressure, stress, weights), the momenta of its beads, the
momentum and the reference cell of its barostat if it has them, the extra momenta of its GLE
thermostats, the accumulated energy of the ensemble, and everything else (`X`: positions, cell,
masses and so on), which exchanges do not touch. -/
structure Rep (X : Type) where
  temp : ℝ
  pext : ℝ
  stress : ℕ → ℝ
  bw : List ℝ
  hw : List ℝ
  mom : ℕ → ℝ
  baro : Option (ℕ → ℝ)
  h0 : Option (ℕ → ℝ)
  gle : ℕ → ℝ
  eens : ℝ
  rest : X

variable {X : Type}

/-- `np.linalg.norm(ens1.stressext - ens2.stressext) > 1e-10` (`ensembles.py` L37). -/
def Far (a b : ℕ → ℝ) : Prop := 1e-10 < √(∑ k ∈ range 9, (a k - b k) ^ 2)

open Classical in
/-- The same test as a truth value. -/
noncomputable def farB (a b : ℕ → ℝ) : Bool := if Far a b then true else false

/-- The ensemble of `a` replaced by that of `b`, where `far` tells whether the stress is taken. -/
def takeEns (a b : Rep X) (far : Bool) : Rep X :=
  { a with temp := b.temp, pext := b.pext, stress := if far then b.stress else a.stress,
           bw := b.bw, hw := b.hw }

/-- `ensemble_swap` (`ensembles.py` L29-58).  The tests that skip the exchange of equal values change
nothing; the stress is exchanged only if it differs by more than `1e-10`.  `none`: ValueError for
different numbers of weights (in python the temperature, the pressure and the stress are exchanged
by then). -/
noncomputable def ensembleSwap (a b : Rep X) : Option (Rep X × Rep X) :=
  if a.bw.length ≠ b.bw.length then none
  else if a.hw.length ≠ b.hw.length then none
  else
    some (takeEns a b (farB a.stress b.stress), takeEns b a (farB a.stress b.stress))

/-- A vector times a number. -/
def smul (x : ℝ) (v : ℕ → ℝ) : ℕ → ℝ := fun k => v k * x

/-- The rescaling of the momenta (L131-142) by `√x`, `√y` for the beads and `x`, `y` for the
barostat: an AttributeError for the first replica leaves both barostats alone, one for the second
leaves the second alone. -/
noncomputable def rescale (a b : Rep X) (x y : ℝ) : Rep X × Rep X :=
  let a := { a with mom := smul (√x) a.mom }
  let b := { b with mom := smul (√y) b.mom }
  match a.baro with
  | none => (a, b)
  | some pa => ({ a with baro := some (smul x pa) },
      match b.baro with
      | none => b
      | some pb => { b with baro := some (smul y pb) })

/-- The exchange of the reference cells (L144-151): both barostats have one, or nothing happens. -/
def swapH0 (a b : Rep X) : Rep X × Rep X :=
  match b.h0, a.h0 with
  | some hb, some ha => ({ a with h0 := some hb }, { b with h0 := some ha })
  | _, _ => (a, b)

/-- The trial exchange of two replicas (L124-151) or its reversal (L183-199): the ensembles are
exchanged, the momenta rescaled by `x` and `y`, the reference cells exchanged. -/
noncomputable def trial (krescale : Bool) (x y : ℝ) (s : Rep X × Rep X) : Option (Rep X × Rep X) :=
  (ensembleSwap s.1 s.2).map fun s =>
    let s := if krescale then rescale s.1 s.2 x y else s
    swapH0 s.1 s.2

/-- What the exchange needs to know of the energies: the logarithm of the probability of a replica
(`lpens`, `ensembles.py` L268-282) and its conserved quantity without the accumulated energy
(`get_econs`, L254-266). -/
structure Energies (X : Type) where
  lp : Rep X → ℝ
  ham : Rep X → ℝ

/-- `econs`. -/
def Energies.econs (E : Energies X) (r : Rep X) : ℝ := E.ham r + r.eens

/-- Result of an attempt. -/
inductive Outcome where
  | accepted
  | rejected
  deriving DecidableEq, Repr

/-- `gle_scale` and the correction of the accumulated energy (L167-176). -/
noncomputable def settle (E : Energies X) (r : Rep X) (x ec : ℝ) : Rep X :=
  let r := { r with gle := smul x r.gle }
  { r with eens := r.eens + (ec - E.econs r) }

open Classical in
/-- One attempt on a pair (L113-205) with the random number `u`. -/
noncomputable def attempt (E : Energies X) (krescale : Bool) (u : ℝ) (s : Rep X × Rep X) :
    Option (Outcome × (Rep X × Rep X)) :=
  let ti := s.1.temp
  let tj := s.2.temp
  let eci := E.econs s.1
  let ecj := E.econs s.2
  let pensi := E.lp s.1
  let pensj := E.lp s.2
  match trial krescale (tj / ti) (ti / tj) s with
  | none => none
  | some s' =>
      let pxc := Real.exp ((E.lp s'.1 + E.lp s'.2) - (pensi + pensj))
      if pxc > u then
        some (.accepted, (settle E s'.1 (tj / ti) eci, settle E s'.2 (ti / tj) ecj))
      else (trial krescale (ti / tj) (tj / ti) s').map fun s'' => (.rejected, s'')

/-- All replicas and the replica index. -/
structure Sys (X : Type) where
  reps : ℕ → Rep X
  index : ℕ → ℕ

/-- Exchange of two entries of the index. -/
def swapIdx (f : ℕ → ℕ) (i j : ℕ) : ℕ → ℕ := fun k => if k = i then f j else if k = j then f i else f k

/-- Two replicas replaced. -/
def put (f : ℕ → Rep X) (i j : ℕ) (s : Rep X × Rep X) : ℕ → Rep X :=
  fun k => if k = i then s.1 else if k = j then s.2 else f k

open Classical in
/-- The body of the double loop (L108-205) for one pair: two random numbers at most, the first
decides whether the exchange is tried. -/
noncomputable def pairStep (E : Energies X) (krescale : Bool) (stride : ℝ) (i j : ℕ) (us : List ℝ)
    (s : Sys X) : Option (List ℝ × Sys X) :=
  match us with
  | [] => none
  | u :: us =>
      if 1 / stride < u then some (us, s)
      else
        match us with
        | [] => none
        | u' :: us =>
            match attempt E krescale u' (s.reps i, s.reps j) with
            | none => none
            | some (.accepted, t) =>
                some (us, { reps := put s.reps i j t, index := swapIdx s.index i j })
            | some (.rejected, t) => some (us, { s with reps := put s.reps i j t })

/-- The pairs of the double loop, in order (L106-107). -/
def pairs (n : ℕ) : List (ℕ × ℕ) :=
  (List.range n).flatMap fun i => (List.range i).map fun j => (i, j)

/-- The loop over a list of pairs. -/
noncomputable def loop (E : Energies X) (krescale : Bool) (stride : ℝ) :
    List (ℕ × ℕ) → List ℝ → Sys X → Option (Sys X)
  | [], _, s => some s
  | (i, j) :: l, us, s =>
      match pairStep E krescale stride i j us s with
      | none => none
      | some (us, s) => loop E krescale stride l us s

open Classical in
/-- `ReplicaExchange.step` (L92-226) with `n` replicas and the random numbers `us`; `none` stands for
an exception or for random numbers that run out.  Simplification: messages, timings and the output
file are left out. -/
noncomputable def step (E : Energies X) (krescale : Bool) (stride : ℝ) (n : ℕ) (us : List ℝ) (s : Sys X) :
    Option (Sys X) :=
  if stride ≤ 0 then some s else loop E krescale stride (pairs n) us s

end Verif.Remd
