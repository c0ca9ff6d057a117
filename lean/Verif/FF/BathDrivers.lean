import Verif.Phys.Pes
import Mathlib.Analysis.SpecialFunctions.Log.Basic

/-!
# The double wells with explicit baths

Model of `/repo/ipi/pes/doublewell_with_bath.py`, `/repo/ipi/pes/doubledoublewell.py` and of how they use
the class of `/repo/ipi/pes/bath.py`, with exact real numbers.
-/

namespace Verif.Pes

open Finset

/-- What goes wrong: a failed `assert`, a `TypeError` or an `IndexError`. -/
inductive BathErr where
  | assertion
  | type
  | index
  deriving DecidableEq

/-- The arguments of `Harmonic_Bath_explicit.__init__` after `self` (`pes/bath.py` L14). -/
def bathParams : List String := ["nbath", "m", "eta0", "eps1", "eps2", "deltaQ", "w_c"]

/-- The methods of the class, which has no base class but `object` (`pes/bath.py` L11-81). -/
def bathMethods : List String := ["__init__", "set_ci_and_wi", "S", "SD", "dSD_dq", "compute_structure"]

/-- A call of the constructor with the first `pos` arguments by place and those of `keys` by name: an
argument may not be given twice or be missing, and what is left over goes to `object.__init__`, which takes
nothing (`pes/bath.py` L14-19). -/
def construct (pos : ℕ) (keys : List String) : Except BathErr Unit :=
  if (bathParams.take pos).any (fun p => keys.contains p) then .error .type
  else if (bathParams.drop pos).any (fun p => !keys.contains p) then .error .type
  else if bathParams.length < pos || keys.any (fun k => !bathParams.contains k) then .error .type
  else .ok ()

/-- `bath(q, x)`: an object can be called when its class has a method `__call__`. -/
def callObject (methods : List String) : Except BathErr Unit :=
  if methods.contains "__call__" then .ok () else .error .type

/-- What a bath is made from. -/
structure BathPar where
  m : ℝ
  eta0 : ℝ
  coup : Coup
  wc : ℝ

/-- `omega` in `set_ci_and_wi` (`pes/bath.py` L40). -/
noncomputable def bathOmega (p : BathPar) (n : ℕ) (i : Fin n) : ℝ := -p.wc * Real.log (((i : ℝ) + 0.5) / n)

open Classical in
/-- `set_ci_and_wi` (`pes/bath.py` L31-47); the power `0.5` as a square root. -/
noncomputable def mkBath (p : BathPar) (n : ℕ) : Bath n where
  m := p.m
  omega2 := fun i => if 0 < p.wc then bathOmega p n i ^ 2 else 0
  coef := fun i => if 0 < p.wc then bathOmega p n i * √((2 * p.eta0 * p.m * p.wc) / (n * Real.pi)) else 0
  on := decide (0 < p.wc)

/-- A double well: `A`, `B` and `delta` (`pes/doublewell_with_bath.py` L80-81, `pes/doubledoublewell.py`
L99-103). -/
structure DW where
  A : ℝ
  B : ℝ
  delta : ℝ

/-- `A` and `B` from the frequency and the height of the barrier, in internal units. -/
noncomputable def DW.make (m w v delta : ℝ) : DW := ⟨-0.5 * m * w ^ 2, m ^ 2 * w ^ 4 / (16 * v), delta⟩

/-- The energy of the well. -/
noncomputable def DW.pot (w : DW) (q : ℝ) : ℝ := w.A * (q - w.delta) ^ 2 + w.B * q ^ 4

/-- The force of the well. -/
noncomputable def DW.force (w : DW) (q : ℝ) : ℝ := -2.0 * w.A * (q - w.delta) - 4.0 * w.B * q ^ 3

/-- `compute_structure` of the double well with a bath (`pes/doublewell_with_bath.py` L84-107): the energy
and the forces.  The class of the bath is given by its methods and by how it is constructed, so that
what the program does and what was meant can both be stated. -/
noncomputable def dwBath (pos : ℕ) (keys methods : List String) (w : DW) (p : BathPar) :
    List ℝ → Except BathErr (ℝ × List ℝ)
  | [] => .error .index
  | q :: xs =>
    let x : Fin xs.length → ℝ := xs.get
    let b := mkBath p xs.length
    match construct pos keys with
    | .error e => .error e
    | .ok _ => match callObject methods with
      | .error e => .error e
      | .ok _ => .ok (bathPot b p.coup q x + w.pot q,
          (bathFq b p.coup q x + w.force q) :: List.ofFn (bathFx b p.coup q x))

/-- The names in `bath_parameters` of the double well with a bath
(`pes/doublewell_with_bath.py` L68-75). -/
def dwKeys : List String := ["m", "eta0", "eps1", "eps2", "deltaQ", "w_c"]

/-- The names in `bath_parameters` of the two double wells (`pes/doubledoublewell.py` L85-92). -/
def ddwKeys : List String := ["m", "eta0", "eps1", "eps2", "deltaQ", "w_c", "delta"]

/-- The energy and the forces of the two coupled double wells with a bath each
(`pes/doubledoublewell.py` L126-142). -/
noncomputable def ddwPot {n : ℕ} (b : Bath n) (c : Coup) (w1 w2 : DW) (C q1 q2 : ℝ) (x y : Fin n → ℝ) : ℝ :=
  bathPot b c q1 x + bathPot b c q2 y + w1.pot q1 + w2.pot q2 + C * q1 * q2

/-- The force on the first well. -/
noncomputable def ddwF1 {n : ℕ} (b : Bath n) (c : Coup) (w1 : DW) (C q1 q2 : ℝ) (x : Fin n → ℝ) : ℝ :=
  bathFq b c q1 x + w1.force q1 + -C * q2

/-- The force on the second well. -/
noncomputable def ddwF2 {n : ℕ} (b : Bath n) (c : Coup) (w2 : DW) (C q1 q2 : ℝ) (y : Fin n → ℝ) : ℝ :=
  bathFq b c q2 y + w2.force q2 + -C * q1

/-- `compute_structure` of the two double wells (`pes/doubledoublewell.py` L106-148): the first two
coordinates are those of the wells, the others are shared between the baths. -/
noncomputable def ddw (pos : ℕ) (keys methods : List String) (w1 w2 : DW) (C : ℝ) (p : BathPar) (r : List ℝ) :
    Except BathErr (ℝ × List ℝ) :=
  if r.length % 2 ≠ 0 then .error .assertion
  else
    let n := (r.length - 2) / 2
    match construct pos keys with
    | .error e => .error e
    | .ok _ => match callObject methods with
      | .error e => .error e
      | .ok _ =>
        let b := mkBath p n
        let q1 := r.getD 0 0
        let q2 := r.getD 1 0
        let x : Fin n → ℝ := fun i => r.getD (2 + i) 0
        let y : Fin n → ℝ := fun i => r.getD (r.length / 2 + 1 + i) 0
        .ok (ddwPot b p.coup w1 w2 C q1 q2 x y,
          [ddwF1 b p.coup w1 C q1 q2 x, ddwF2 b p.coup w2 C q1 q2 y]
            ++ (List.ofFn (bathFx b p.coup q1 x) ++ List.ofFn (bathFx b p.coup q2 y)))

end Verif.Pes
