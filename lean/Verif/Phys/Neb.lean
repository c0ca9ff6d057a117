/-
Model of the nudged elastic band.

Code: /repo/ipi/engine/motion/neb.py L27-215 (`NEBGradientMapper`), L218-280 (`NEBClimbGrMapper`),
      L408-486 (`NEBMover.bind`), L488-541 (`init_climb`), L543-568 (`adjust_big_step`), L576-987 (`step`);
      /repo/ipi/inputs/motion/neb.py (`stage`, `biggest_step`).

Simplifications: an image is a pair of the coordinates that may move (`ι → ℝ`, the masked arrays of the
code) and those that are fixed; the optimisers (`Damped_BFGS`, `FIRE`, the subject of C88) are replaced by
an arbitrary choice of the next positions of the coordinates that may move; the energies of the end points,
which the code computes once, are those of the positions of the end points; `np.argmax` returns the first
maximum.  Real numbers stand for floating point numbers; a division by the norm of a zero vector gives zero
instead of NaN.
-/
import Mathlib.Analysis.InnerProductSpace.PiL2
import Mathlib.Analysis.InnerProductSpace.Basic

open scoped InnerProductSpace

noncomputable section

namespace Verif.Neb

section Vectors

variable {E : Type} [NormedAddCommGroup E] [InnerProductSpace ℝ E]

/-- Division by the norm. -/
def unit (v : E) : E := ‖v‖⁻¹ • v

/-- /repo/ipi/engine/motion/neb.py L120-123 and L268-271. -/
def plain (d1 d2 : E) : E := unit (unit d1 + unit d2)

/-- /repo/ipi/engine/motion/neb.py L130-143: `em`, `e`, `ep` are the energies of the image before, the image
and the image after. -/
def improvedRaw (em e ep : ℝ) (d1 d2 : E) : E :=
  if ep < e ∧ e < em then d1
  else if em ≤ e ∧ e ≤ ep then d2
  else
    let mx := max |ep - e| |em - e|
    let mn := min |ep - e| |em - e|
    if em ≤ ep then mx • d2 + mn • d1 else mn • d2 + mx • d1

/-- /repo/ipi/engine/motion/neb.py L144. -/
def improved (em e ep : ℝ) (d1 d2 : E) : E := unit (improvedRaw em e ep d1 d2)

/-- /repo/ipi/engine/motion/neb.py L178-180 and L197-203: the force across the path and the spring along it. -/
def band (kappa : ℝ) (tau f d1 d2 : E) : E := (f - ⟪f, tau⟫_ℝ • tau) + (kappa * (‖d2‖ - ‖d1‖)) • tau

/-- /repo/ipi/engine/motion/neb.py L274: the force along the path is inverted. -/
def climb (tau f : E) : E := f - (2 * ⟪f, tau⟫_ℝ) • tau

end Vectors

/-- `tangent` (/repo/ipi/engine/motion/neb.py L120-147). -/
inductive Tangent where
  | plain
  | improved

/-- `stage`. -/
inductive Stage where
  | neb
  | climb
  | converged
  deriving DecidableEq

/-- `np.argmax` of the first `k + 1` values. -/
def argmax (v : ℕ → ℝ) : ℕ → ℕ
  | 0 => 0
  | k + 1 => if v (argmax v k) < v (k + 1) then k + 1 else argmax v k

variable {ι : Type} [Fintype ι] {F : Type}

/-- The coordinates that may move. -/
abbrev Act (ι : Type) [Fintype ι] := EuclideanSpace ℝ ι

/-- The potential, its force, and the parameters of the calculation; there are `n + 2` images. -/
structure Sys (ι : Type) [Fintype ι] (F : Type) where
  n : ℕ
  natoms : ℕ
  pot : Act ι × F → ℝ
  force : Act ι × F → Act ι × F
  kappa : ℝ
  tangent : Tangent
  useClimb : Bool
  etol : ℝ
  ftol : ℝ
  ptol : ℝ

/-- The state of the calculation. -/
structure St (ι : Type) [Fintype ι] (F : Type) where
  q : ℕ → Act ι × F
  /-- `full_f` and `full_v`: what is printed as forces and potentials (L740-764 and L919-937). -/
  fullF : ℕ → Act ι × F
  fullV : ℕ → ℝ
  stage : Stage := .neb
  /-- `finish` with success or not. -/
  done : Option Bool := none
  cl : ℕ := 0
  qprev : Act ι := 0
  qnext : Act ι := 0
  oldE : ℝ

/-- An image between the end points. -/
def Sys.inner (s : Sys ι F) (i : ℕ) : Prop := 1 ≤ i ∧ i ≤ s.n

instance (s : Sys ι F) (i : ℕ) : Decidable (s.inner i) := inferInstanceAs (Decidable (_ ∧ _))

/-- The displacements from the image before and to the image after (L117-118). -/
def dm (q : ℕ → Act ι × F) (i : ℕ) : Act ι := (q i).1 - (q (i - 1)).1

def dp (q : ℕ → Act ι × F) (i : ℕ) : Act ι := (q (i + 1)).1 - (q i).1

/-- /repo/ipi/engine/motion/neb.py L116-144. -/
def Sys.tau (s : Sys ι F) (q : ℕ → Act ι × F) (i : ℕ) : Act ι :=
  match s.tangent with
  | .plain => plain (dm q i) (dp q i)
  | .improved => improved (s.pot (q (i - 1))) (s.pot (q i)) (s.pot (q (i + 1))) (dm q i) (dp q i)

/-- /repo/ipi/engine/motion/neb.py L213-215: the gradient of an image. -/
def Sys.grad (s : Sys ι F) (q : ℕ → Act ι × F) (i : ℕ) : Act ι :=
  - band s.kappa (s.tau q i) (s.force (q i)).1 (dm q i) (dp q i)

/-- /repo/ipi/engine/motion/neb.py L213: the energy of the band. -/
def Sys.energy (s : Sys ι F) (q : ℕ → Act ι × F) : ℝ := ∑ i ∈ Finset.range (s.n + 2), s.pot (q i)

/-- The start: /repo/ipi/engine/motion/neb.py L616-634 and L675-691. -/
def Sys.start (s : Sys ι F) (q : ℕ → Act ι × F) : St ι F :=
  { q := q, fullF := fun i => s.force (q i), fullV := fun i => s.pot (q i), oldE := s.energy q }

/-- L721-722: the images take the positions of the mapper, in which only the coordinates that may move of the
images between the end points have been written (L73-78). -/
def Sys.moved (s : Sys ι F) (q : ℕ → Act ι × F) (x : ℕ → Act ι) (i : ℕ) : Act ι × F :=
  if s.inner i then (x i, (q i).2) else q i

/-- L775-785: the criteria of convergence of the band. -/
def Sys.bandOk (s : Sys ι F) (st : St ι F) (q' : ℕ → Act ι × F) : Prop :=
  |s.energy q' - st.oldE| / ((s.n + 2) * s.natoms) ≤ s.etol ∧
  (∀ i, s.inner i → ∀ k, |s.grad q' i k| ≤ s.ftol) ∧
  ∀ i, s.inner i → ∀ k, |(q' i).1 k - (st.q i).1 k| ≤ s.ptol

/-- L786-802: what follows if the band has converged. -/
def Sys.bandNext (s : Sys ι F) (st : St ι F) (q' : ℕ → Act ι × F) : Stage × Option Bool :=
  open Classical in
  if s.bandOk st q' then (if s.useClimb then (.climb, none) else (.converged, some true)) else (.neb, none)

/-- /repo/ipi/engine/motion/neb.py L603-828: one step of the band. -/
def Sys.bandStep (s : Sys ι F) (st : St ι F) (x : ℕ → Act ι) : St ι F :=
  let q' := s.moved st.q x
  { st with
    q := q'
    fullF := fun i => if s.inner i then s.force (q' i) else st.fullF i
    fullV := fun i => if s.inner i then s.pot (q' i) else st.fullV i
    stage := (s.bandNext st q').1
    done := (s.bandNext st q').2
    oldE := s.energy q' }

/-- The tangent and the gradient of the climbing image (L266-280). -/
def Sys.climbGrad (s : Sys ι F) (st : St ι F) (y : Act ι × F) : Act ι :=
  - climb (plain (y.1 - st.qprev) (st.qnext - y.1)) (s.force y).1

/-- /repo/ipi/engine/motion/neb.py L488-541: the highest image is chosen and its neighbours are stored. -/
def Sys.initClimb (s : Sys ι F) (st : St ι F) : St ι F :=
  let j := argmax (fun i => s.pot (st.q i)) (s.n + 1)
  if j = 0 ∨ j = s.n + 1 then { st with done := some false }
  else { st with
    cl := j
    qprev := (st.q (j - 1)).1
    qnext := (st.q (j + 1)).1
    oldE := s.pot (st.q j) }

/-- L941-950: the criteria of convergence of the climbing image, whose new position is `y`. -/
def Sys.climbOk (s : Sys ι F) (st : St ι F) (y : Act ι × F) : Prop :=
  |s.pot y - st.oldE| / s.natoms ≤ s.etol ∧ (∀ k, |s.climbGrad st y k| ≤ s.ftol) ∧
  ∀ k, |y.1 k - (st.q st.cl).1 k| ≤ s.ptol

/-- L951-961. -/
def Sys.climbNext (s : Sys ι F) (st : St ι F) (y : Act ι × F) : Stage × Option Bool :=
  open Classical in
  if s.climbOk st y then (.converged, some true) else (.climb, none)

/-- /repo/ipi/engine/motion/neb.py L843-987: the climbing image moves; its gradient is stored among the forces
(L923-924). -/
def Sys.climbMove (s : Sys ι F) (st : St ι F) (x : Act ι) : St ι F :=
  let y : Act ι × F := (x, (st.q st.cl).2)
  { st with
    q := Function.update st.q st.cl y
    fullF := Function.update st.fullF st.cl (s.climbGrad st y, (st.fullF st.cl).2)
    fullV := Function.update st.fullV st.cl (s.pot y)
    stage := (s.climbNext st y).1
    done := (s.climbNext st y).2
    oldE := s.pot y }

/-- /repo/ipi/engine/motion/neb.py L837-841: climbing is initialised if the neighbours are all zero. -/
def Sys.climbStep (s : Sys ι F) (st : St ι F) (x : ℕ → Act ι) : St ι F :=
  open Classical in
  if st.qprev = 0 ∨ st.qnext = 0 then
    let st1 := s.initClimb st
    if st1.done.isSome then st1 else s.climbMove st1 (x st1.cl)
  else s.climbMove st (x st.cl)

/-- /repo/ipi/engine/motion/neb.py L576-987: a step; after `finish` there are no more. -/
def Sys.step (s : Sys ι F) (st : St ι F) (x : ℕ → Act ι) : St ι F :=
  if st.done.isSome then st
  else match st.stage with
    | .neb => s.bandStep st x
    | .climb => s.climbStep st x
    | .converged => { st with done := some true }

/-- Any number of steps. -/
def Sys.run (s : Sys ι F) (st : St ι F) (xs : List (ℕ → Act ι)) : St ι F := xs.foldl s.step st

/-- /repo/ipi/engine/motion/neb.py L543-568. -/
def adjust (big quality : ℝ) : ℝ :=
  if quality > 0.8 then big * 1.3
  else if quality > 0.6 then big * 1.1
  else if big * 0.5 ≤ 0.01 then 0.02 else big * 0.5

/-- What `bind` does with the approximate Hessian. -/
inductive HessBind where
  | kept
  | masked
  | fresh
  | valueError
  | attributeError
  deriving DecidableEq

/-- /repo/ipi/engine/motion/neb.py L413-451: the sizes of the Hessian for the band; `act` coordinates may
move, an image has `all`, there are `n + 2` images.  The branch for the whole matrix uses the mask of the mapper
before `bind` of the mapper has made it. -/
def bindBand (size act all n : ℕ) : HessBind :=
  if size = (act * n) ^ 2 then .kept
  else if size = (all * (n + 2)) * (all * (n + 2)) then .attributeError
  else if size = 0 then .fresh
  else .valueError

/-- /repo/ipi/engine/motion/neb.py L453-479: the sizes of the Hessian for the climbing image.  The third test is
an `if` of its own; the mask does not exist yet in the second branch. -/
def bindClimb (size act all : ℕ) : HessBind :=
  if size = act * act then (if size = 0 then .fresh else .valueError)
  else if size = all * all then .attributeError
  else if size = 0 then .fresh
  else .valueError

end Verif.Neb
