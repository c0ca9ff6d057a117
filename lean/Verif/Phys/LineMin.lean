/-
Model of the one-dimensional line search of i-PI's geometry optimisers
(ipi/utils/mintools.py `bracket` L70-215 and `min_brent` L222-403) and of the
steepest-descent step which calls it (ipi/engine/motion/geop.py `LineMapper`
L181-231 and `SDOptimizer.step` L821-883).

The arithmetic is that of an arbitrary ordered field, so that the same definitions
run on rationals.  Rounding is not modelled.  Printing is dropped.
-/
import Mathlib.Algebra.Order.Field.Basic
import Mathlib.Algebra.Order.Ring.Abs
import Mathlib.Algebra.BigOperators.Fin

namespace Verif.LineMin

variable {K : Type*} [Field K] [LinearOrder K]

/-- A point on the line together with the value and slope the search has recorded for it
(the triples `x, fx, dfx` of mintools.py). -/
structure Pt (K : Type*) where
  x : K
  f : K
  df : K

/-- The three bracketing points `ax, bx, cx` with their values (mintools.py L84-87).
The slope of `ax` is carried by the code but never used. -/
structure Tri (K : Type*) where
  a : Pt K
  b : Pt K
  c : Pt K

/-- One call `fdf(x)`: value and slope at `x`. -/
def ev (fdf : K → K × K) (x : K) : Pt K := ⟨x, (fdf x).1, (fdf x).2⟩

/-- `math.copysign(m, s)`; a negative zero `s` is not distinguished from zero. -/
def copysign (m s : K) : K := if s < 0 then -|m| else |m|

/-- The constant `gold` of `bracket` (mintools.py L80). -/
def gold : K := 1618034 / 1000000

/-- The constant `tiny` (mintools.py L82). -/
def tiny : K := 1 / 10 ^ 20

/-- Swap the first two points so that the search goes downhill (mintools.py L98-108). -/
def order (a b : Pt K) : Pt K × Pt K := if a.f < b.f then (b, a) else (a, b)

/-- `bracket` up to the loop (mintools.py L89-112).  The list holds the positions at which
the function has been evaluated, the latest first.  `f0` are the value and slope the caller
passes for `x0`; they are not evaluated again. -/
def start (fdf : K → K × K) (f0 : K × K) (x0 step : K) : Tri K × List K :=
  let p := order ⟨x0, f0.1, f0.2⟩ (ev fdf (x0 + step))
  let c := ev fdf (p.2.x + gold * (p.2.x - p.1.x))
  (⟨p.1, p.2, c⟩, [c.x, x0 + step])

/-- Result of one pass of the bracketing loop: return, or go round again. -/
inductive Out (K : Type*) where
  | ret (t : Tri K) (log : List K)
  | go (t : Tri K) (log : List K)

/-- The point of the parabolic fit (mintools.py L123-127). -/
def parab (t : Tri K) : K :=
  let r := (t.b.x - t.a.x) * (t.b.f - t.c.f)
  let q := (t.b.x - t.c.x) * (t.b.f - t.a.f)
  t.b.x - ((t.b.x - t.c.x) * q - (t.b.x - t.a.x) * r) /
    (2 * copysign (max |q - r| tiny) (q - r))

/-- The limit of the parabolic step (mintools.py L128-130, `glimit = 100`). -/
def ulim (t : Tri K) : K := t.b.x + 100 * (t.c.x - t.b.x)

/-- The default magnification (mintools.py L168, L181, L195). -/
def far (b c : K) : K := c + gold * (c - b)

/-- One pass of the bracketing loop (mintools.py L122-208). -/
def pass (fdf : K → K × K) (t : Tri K) : Out K :=
  let u := parab t
  if 0 < (t.b.x - u) * (u - t.c.x) then
    if (ev fdf u).f < t.c.f then .ret ⟨t.b, ev fdf u, t.c⟩ [u]
    else if t.b.f < (ev fdf u).f then .ret ⟨t.a, t.b, ev fdf u⟩ [u]
    else .go ⟨t.b, t.c, ev fdf (far t.b.x t.c.x)⟩ [far t.b.x t.c.x, u]
  else if 0 < (t.c.x - u) * (u - ulim t) then
    if (ev fdf u).f < t.c.f then
      .go ⟨t.c, ev fdf u, ev fdf (far t.c.x u)⟩ [far t.c.x u, u]
    else .go ⟨t.b, t.c, ev fdf u⟩ [u]
  else if 0 ≤ (u - ulim t) * (ulim t - t.c.x) then
    .go ⟨t.b, t.c, ev fdf (ulim t)⟩ [ulim t]
  else .go ⟨t.b, t.c, ev fdf (far t.b.x t.c.x)⟩ [far t.b.x t.c.x]

/-- The loop `while fb > fc` (mintools.py L122-215), which has no bound on its passes:
`none` means that it is still running after the given number of them. -/
def widen (fdf : K → K × K) : Nat → Tri K → List K → Option (Tri K × List K)
  | 0, t, log => if t.c.f < t.b.f then none else some (t, log)
  | n + 1, t, log =>
    if t.c.f < t.b.f then
      match pass fdf t with
      | .ret t' l => some (t', l ++ log)
      | .go t' l => widen fdf n t' (l ++ log)
    else some (t, log)

/-- `bracket` (mintools.py L70-215), given up after `fuel` passes. -/
def bracket (fdf : K → K × K) (f0 : K × K) (x0 step : K) (fuel : Nat) :
    Option (Tri K × List K) :=
  widen fdf fuel (start fdf f0 x0 step).1 (start fdf f0 x0 step).2

/-- The variables of the main loop of `min_brent` (mintools.py L238-262): the interval
`a, b`, the step before last `e`, the best point, the second best and the one before. -/
structure St (K : Type*) where
  a : K
  b : K
  e : K
  x : Pt K
  w : Pt K
  v : Pt K

/-- The state before the first pass (mintools.py L238, L244-262). -/
def init (t : Tri K) : St K :=
  ⟨if t.a.x < t.c.x then t.a.x else t.c.x, if t.c.x < t.a.x then t.a.x else t.c.x, 0,
    t.b, t.b, t.b⟩

/-- `tol1` (mintools.py L270). -/
def tol1 (tol : K) (s : St K) : K := tol * |s.x.x| + 1 / 10 ^ 10

/-- The middle of the interval (mintools.py L269). -/
def mid (s : St K) : K := (s.a + s.b) / 2

/-- The end of the interval on the downhill side (mintools.py L325-328, L332-335, L338-341). -/
def side (s : St K) : K := if 0 ≤ s.x.df then s.a - s.x.x else s.b - s.x.x

/-- The secant step through `p` (mintools.py L283-290); twice the interval when the slopes
are equal. -/
def secant (s : St K) (p : Pt K) : K :=
  if p.df ≠ s.x.df then (p.x - s.x.x) * s.x.df / (s.x.df - p.df) else 2 * (s.b - s.a)

/-- Whether a secant step is acceptable (mintools.py L295-298). -/
def okStep (s : St K) (d : K) : Prop :=
  0 < (s.a - (s.x.x + d)) * (s.x.x + d - s.b) ∧ s.x.df * d ≤ 0

instance (s : St K) (d : K) : Decidable (okStep s d) := by unfold okStep; infer_instance

/-- The secant step taken when at least one is acceptable (mintools.py L306-314). -/
def chosen (s : St K) : K :=
  if okStep s (secant s s.w) ∧ okStep s (secant s s.v) then
    if |secant s s.w| < |secant s s.v| then secant s s.w else secant s s.v
  else if okStep s (secant s s.w) then secant s s.w else secant s s.v

/-- The step and the new `e` (mintools.py L281-342).  `e = d` at L300 stores zero, since `d`
has just been set to zero at L281. -/
def move (tol : K) (s : St K) : K × K :=
  if tol1 tol s < |s.e| then
    if okStep s (secant s s.w) ∨ okStep s (secant s s.v) then
      if |chosen s| ≤ |s.e / 2| then
        if s.x.x + chosen s - s.a < 2 * tol1 tol s ∨ s.b - (s.x.x + chosen s) < 2 * tol1 tol s
        then (copysign (tol1 tol s) (mid s - s.x.x), 0)
        else (side s / 2, side s)
      else (chosen s, 0)
    else (side s / 2, side s)
  else (side s / 2, side s)

/-- The position tried next (mintools.py L344-349). -/
def trial (tol : K) (s : St K) : K :=
  if tol1 tol s ≤ |(move tol s).1| then s.x.x + (move tol s).1
  else s.x.x + copysign (tol1 tol s) (move tol s).1

/-- The bookkeeping after a trial (mintools.py L361-391). -/
def update (s : St K) (e : K) (u : Pt K) : St K :=
  if u.f ≤ s.x.f then
    { a := if s.x.x ≤ u.x then s.x.x else s.a
      b := if s.x.x ≤ u.x then s.b else s.x.x
      e := e, x := u, w := s.x, v := s.w }
  else
    let a := if u.x < s.x.x then u.x else s.a
    let b := if u.x < s.x.x then s.b else u.x
    if u.f ≤ s.w.f ∨ s.w.x = s.x.x then
      { a := a, b := b, e := e, x := s.x, w := u, v := s.w }
    else if u.f < s.v.f ∨ s.v.x = s.x.x ∨ s.v.x = s.w.x then
      { a := a, b := b, e := e, x := s.x, w := s.w, v := u }
    else { a := a, b := b, e := e, x := s.x, w := s.w, v := s.v }

/-- How `min_brent` ends: the interval is small enough (L274-278), the smallest step goes
uphill (L352-359), or the allowed passes are used up (L394-403). -/
inductive How where
  | tol
  | rise
  | spent
deriving DecidableEq

/-- The outcome of `min_brent`: how it ended, the best point, and the positions evaluated by
its main loop, the latest first.  The code returns nothing: what the caller sees is the
position last evaluated. -/
structure Found (K : Type*) where
  how : How
  x : Pt K
  tried : List K

/-- The interval is small enough (mintools.py L274). -/
def small (tol : K) (s : St K) : Prop :=
  |s.x.x - mid s| ≤ 2 * tol1 tol s - (s.b - s.a) / 2

instance (tol : K) (s : St K) : Decidable (small tol s) := by unfold small; infer_instance

/-- The main loop of `min_brent` (mintools.py L265-403). -/
def search (fdf : K → K × K) (tol : K) : Nat → St K → List K → Found K
  | 0, s, log => ⟨.spent, s.x, log⟩
  | n + 1, s, log =>
    if small tol s then ⟨.tol, s.x, s.x.x :: log⟩
    else if |(move tol s).1| < tol1 tol s ∧ s.x.f < (ev fdf (trial tol s)).f then
      ⟨.rise, s.x, s.x.x :: trial tol s :: log⟩
    else search fdf tol n (update s (move tol s).2 (ev fdf (trial tol s))) (trial tol s :: log)

/-- `min_brent` (mintools.py L222-403).  The second component is the position the mapper is
left at: the last one evaluated.  `none`: the bracketing is still running after `fuel` passes. -/
def minBrent (fdf : K → K × K) (f0 : K × K) (x0 tol : K) (itmax : Nat) (step : K)
    (fuel : Nat) : Option (Found K × K) :=
  match bracket fdf f0 x0 step fuel with
  | none => none
  | some (t, log) =>
    let r := search fdf tol itmax (init t) []
    some (r, (r.tried ++ log).headD x0)

/-! ### Steepest descent -/

/-- Scalar product of two flattened arrays. -/
def dot {n : Nat} (u v : Fin n → K) : K := ∑ i, u i * v i

/-- The forces with the held coordinates set to zero (geop.py L830-835). -/
def held {n : Nat} (fixed : Fin n → Bool) (f : Fin n → K) : Fin n → K :=
  fun i => if fixed i then 0 else f i

/-- Division of every component (geop.py L840, L210). -/
def scaled {n : Nat} (v : Fin n → K) (c : K) : Fin n → K := fun i => v i / c

/-- The direction of the steepest-descent step: the forces on the free coordinates, brought
to unit length (geop.py L837-840).  `nrm` is `np.sqrt(np.dot(·,·))`. -/
def sdDir {n : Nat} (nrm : (Fin n → K) → K) (fixed : Fin n → Bool) (f : Fin n → K) :
    Fin n → K :=
  scaled (held fixed f) (nrm (held fixed f))

/-- The direction as kept by the line mapper, normalised once more (geop.py L205-211). -/
def lineDir {n : Nat} (nrm : (Fin n → K) → K) (fixed : Fin n → Bool) (d : Fin n → K) :
    Fin n → K :=
  scaled (held fixed d) (nrm (held fixed d))

/-- The position at `t` along the line: only the free coordinates are written, the others
are those of the mapper's own copy of the beads (geop.py L222-224). -/
def along {n : Nat} (fixed : Fin n → Bool) (own x0 d : Fin n → K) (t : K) : Fin n → K :=
  fun i => if fixed i then own i else x0 i + d i * t

/-- `LineMapper.__call__` (geop.py L217-229): energy, and minus the force along the
direction over the free coordinates. -/
def lineMap {n : Nat} (V : (Fin n → K) → K) (F : (Fin n → K) → Fin n → K)
    (fixed : Fin n → Bool) (own x0 d : Fin n → K) (t : K) : K × K :=
  (V (along fixed own x0 d t), -dot (held fixed (F (along fixed own x0 d t))) d)

/-- The value and slope the optimiser passes for the starting point (geop.py L847-850). -/
def sdStart {n : Nat} (V : (Fin n → K) → K) (F : (Fin n → K) → Fin n → K)
    (x0 d : Fin n → K) : K × K :=
  (V x0, dot (F x0) d)

/-- The next initial step (geop.py L876-879, `ls_options["adaptive"]`). -/
def adapt (adaptive moved step : K) : K := 1 / 10 * moved * adaptive + (1 - adaptive) * step

/-- The options of the line search (`ls_options` times the energy tolerance). -/
structure Ls (K : Type*) where
  tol : K
  iter : Nat
  adaptive : K

/-- One steepest-descent step (geop.py L821-883): the new positions and the new initial step
of the line search.  Convergence bookkeeping and timing are dropped; a direction of zero
length (division by zero in numpy) is the field's division by zero. -/
def sdStep {n : Nat} (nrm : (Fin n → K) → K) (V : (Fin n → K) → K)
    (F : (Fin n → K) → Fin n → K) (fixed : Fin n → Bool) (own : Fin n → K) (o : Ls K)
    (fuel : Nat) (q : Fin n → K) (step : K) : Option ((Fin n → K) × K) :=
  let d1 := sdDir nrm fixed (F q)
  let d := lineDir nrm fixed d1
  match minBrent (lineMap V F fixed own q d) (sdStart V F q d1) 0 o.tol o.iter step fuel with
  | none => none
  | some (_, t) =>
    let q' := along fixed own q d t
    some (q', adapt o.adaptive (nrm fun i => |q' i - q i|) step)

/-- Repeated steps. -/
def sdRun {n : Nat} (nrm : (Fin n → K) → K) (V : (Fin n → K) → K)
    (F : (Fin n → K) → Fin n → K) (fixed : Fin n → Bool) (own : Fin n → K) (o : Ls K)
    (fuel : Nat) : Nat → (Fin n → K) → K → Option ((Fin n → K) × K)
  | 0, q, step => some (q, step)
  | k + 1, q, step =>
    (sdStep nrm V F fixed own o fuel q step).bind fun r =>
      sdRun nrm V F fixed own o fuel k r.1 r.2

/-! ### Conjugate gradients -/

/-- The Polak-Ribiere coefficient (geop.py L927-929). -/
def cgBeta {n : Nat} (g0 g1 : Fin n → K) : K := dot (fun i => g1 i - g0 i) g1 / dot g0 g0

/-- The direction of a conjugate-gradient step after the first (geop.py L930). -/
def cgDir {n : Nat} (g0 d0 g1 : Fin n → K) : Fin n → K :=
  fun i => g1 i + max 0 (cgBeta g0 g1) * d0 i

end Verif.LineMin
