/-
Model of the quasi-Newton optimisers of i-PI (ipi/utils/mintools.py): the approximate line
search `min_approx` (L408-537), `BFGS` (L543-594), the acceptance loop of `BFGSTRM`
(L602-651), `TRM_UPDATE` (L657-677), `L_BFGS` (L774-888), `Damped_BFGS` (L892-1010), `FIRE`
(L1013-1106), `nichols` (L1533-1612) and `Powell` (L1615-1626).

Arrays are vectors over a finite index set (with held atoms, the free coordinates only:
geop.py passes masked arrays), numbers are reals, rounding and printing are not modelled.
-/
import Mathlib.Analysis.Real.Sqrt
import Mathlib.Data.Matrix.Mul
import Mathlib.LinearAlgebra.Matrix.Symmetric

namespace Verif.QN

open Matrix

variable {ι : Type*} [Fintype ι]

/-- A flattened array. -/
abbrev Vec (ι : Type*) := ι → ℝ

/-- `np.linalg.norm` of a flattened array. -/
noncomputable def norm (v : Vec ι) : ℝ := Real.sqrt (v ⬝ᵥ v)

/-- `np.outer(u, v)`. -/
def outer (u v : Vec ι) : Matrix ι ι ℝ := vecMulVec u v

/-! ### The approximate line search -/

/-- The direction scaled down when it is longer than allowed (mintools.py L435-440). -/
noncomputable def limit (big : ℝ) (d : Vec ι) : Vec ι :=
  open Classical in if big < norm d then (big / norm d) • d else d

/-- The largest of the entries `f i`, all non-negative (`np.amax`). -/
noncomputable def amax (f : Vec ι) : ℝ := ⨆ i, f i

/-- `test` (mintools.py L447-451). -/
noncomputable def relSize (x0 d : Vec ι) : ℝ := amax fun i => |d i| / max |x0 i| 1

/-- The step tried after a failure (mintools.py L489-527), from the present `alam`, value
`fx`, and the previous value and step.  Division by zero gives nan or infinity in numpy and
zero here. -/
noncomputable def backtrack (f0 slope alam fx f2 alam2 : ℝ) : ℝ :=
  open Classical in
  if alam = 1 then -slope / (2 * (fx - f0 - slope))
  else
    let rhs1 := fx - f0 - alam * slope
    let rhs2 := f2 - f0 - alam2 * slope
    let a := (rhs1 / (alam * alam) - rhs2 / (alam2 * alam2)) / (alam - alam2)
    let b := (-alam2 * rhs1 / (alam * alam) + alam * rhs2 / (alam2 * alam2)) / (alam - alam2)
    if a = 0 then -slope / (2 * b)
    else
      let disc := b * b - 3 * a * slope
      let t := if disc < 0 then alam / 2
        else if b ≤ 0 then (-b + Real.sqrt disc) / (3 * a)
        else -slope / (b + Real.sqrt disc)
      if alam / 2 < t then alam / 2 else t

/-- How the approximate line search ends: on a small step (L465-471), on sufficient decrease
(L474-480), or with the allowed passes used up (L531-537). -/
inductive Why where
  | position
  | decrease
  | spent
deriving DecidableEq

/-- The returned `(x, fx, dfx)`, why, the step factor of the last trial, and the position at
which the mapper has been left (the last one evaluated). -/
structure Line (ι : Type*) where
  why : Why
  x : Vec ι
  f : ℝ
  g : Vec ι
  lam : ℝ
  at_ : Vec ι

/-- The loop of `min_approx` (mintools.py L459-537): `k` passes are left; the result of the
last trial is returned when there is none. -/
noncomputable def approxLoop (fdf : Vec ι → ℝ × Vec ι) (x0 d : Vec ι) (f0 slope lamin : ℝ) :
    Nat → ℝ → ℝ → ℝ → Line ι → Line ι
  | 0, _, _, _, last => last
  | k + 1, alam, f2, alam2, _ =>
    open Classical in
    let x := x0 + alam • d
    let fx := (fdf x).1
    if alam < lamin then ⟨.position, x0, fx, (fdf x).2, alam, x⟩
    else if fx ≤ f0 + 1 / 10000 * alam * slope then ⟨.decrease, x, fx, (fdf x).2, alam, x⟩
    else approxLoop fdf x0 d f0 slope lamin k
      (max (backtrack f0 slope alam fx f2 alam2) (alam / 10)) fx alam
      ⟨.spent, x, fx, (fdf x).2, alam, x⟩

/-- `min_approx` (mintools.py L408-537) with its direction given (L429-430 is not used by the
optimisers).  A zero direction makes `tol / test` infinite in the code and zero here: the search
then ends on the small step there and on the unchanged energy here, at the same place.  `none`: no pass is allowed and the code fails with an unbound `fx`. -/
noncomputable def minApprox (fdf : Vec ι → ℝ × Vec ι) (x0 : Vec ι) (f0 : ℝ) (g0 d0 : Vec ι)
    (big tol : ℝ) (itmax : Nat) : Option (Line ι) :=
  let d := limit big d0
  if itmax ≤ 1 then none
  else some (approxLoop fdf x0 d f0 (g0 ⬝ᵥ d) (tol / relSize x0 d) (itmax - 1) 1 0 0
    ⟨.spent, x0, f0, g0, 1, x0⟩)

/-! ### BFGS -/

/-- The condition for an update (mintools.py L579, `zeps = 1e-13`; L850, `zeps = 1e-10`). -/
def curved (zeps : ℝ) (dx dg : Vec ι) : Prop :=
  Real.sqrt (zeps * (dg ⬝ᵥ dg) * (dx ⬝ᵥ dx)) < dg ⬝ᵥ dx

/-- The update of the inverse Hessian (mintools.py L571-587). -/
noncomputable def bfgsUpdate (H : Matrix ι ι ℝ) (dx dg : Vec ι) : Matrix ι ι ℝ :=
  let hdg := H *ᵥ dg
  let fac := 1 / (dg ⬝ᵥ dx)
  let fae := dg ⬝ᵥ hdg
  let fad := 1 / fae
  let v := fac • dx - fad • hdg
  H + (fac • outer dx dx - fad • outer hdg hdg + fae • outer v v)

/-- The inverse Hessian after a step: updated, or left (mintools.py L578-591). -/
noncomputable def bfgsHess (H : Matrix ι ι ℝ) (dx dg : Vec ι) : Matrix ι ι ℝ :=
  open Classical in if curved (1 / 10 ^ 13) dx dg then bfgsUpdate H dx dg else H

/-- The step limit handed to the line search (mintools.py L560-563, L799-801). -/
noncomputable def bigStep (big : ℝ) (x0 : Vec ι) : ℝ :=
  big * max (Real.sqrt (x0 ⬝ᵥ x0)) (Fintype.card ι)

/-- What the BFGS optimiser carries from one step to the next (geop.py L401-486): positions,
direction and inverse Hessian. -/
structure Bfgs (ι : Type*) where
  q : Vec ι
  d : Vec ι
  H : Matrix ι ι ℝ

/-- One BFGS step (mintools.py L543-594, geop.py L419-486): the positions are taken from the
mapper, not from the line search's return value. -/
noncomputable def bfgsStep (fdf : Vec ι → ℝ × Vec ι) (big tol : ℝ) (itmax : Nat)
    (s : Bfgs ι) : Option (Line ι × Bfgs ι) :=
  (minApprox fdf s.q (fdf s.q).1 (fdf s.q).2 s.d (bigStep big s.q) tol itmax).map fun r =>
    let H := bfgsHess s.H (r.x - s.q) (r.g - (fdf s.q).2)
    (r, ⟨r.at_, H *ᵥ (-r.g), H⟩)

/-- The first direction: along the force, of unit length (geop.py L430-432). -/
noncomputable def firstDir (g : Vec ι) : Vec ι := (1 / norm g) • (-g)

/-- The state before step 0, with the default unit inverse Hessian (geop.py L408-410). -/
noncomputable def bfgsInit [DecidableEq ι] (fdf : Vec ι → ℝ × Vec ι) (q : Vec ι) : Bfgs ι :=
  ⟨q, firstDir (fdf q).2, 1⟩

/-- Repeated BFGS steps. -/
noncomputable def bfgsRun (fdf : Vec ι → ℝ × Vec ι) (big tol : ℝ) (itmax : Nat) :
    Nat → Bfgs ι → Option (Bfgs ι)
  | 0, s => some s
  | k + 1, s => (bfgsStep fdf big tol itmax s).bind fun r => bfgsRun fdf big tol itmax k r.2

/-! ### L-BFGS -/

/-- A stored pair: change of position and change of gradient. -/
structure Pair (ι : Type*) where
  s : Vec ι
  y : Vec ι

/-- `qlist`/`glist` after step `k` with `m` corrections (mintools.py L817-830): the rows as a
list of length `m`. -/
def store (m k : Nat) (l : List (Pair ι)) (p : Pair ι) : List (Pair ι) :=
  if k < m then l.set k p else (l.tail ++ l.take 1).set (m - 1) p

/-- The number of rows used (mintools.py L834-839, `bound2`). -/
def used (m k : Nat) : Nat := if k < m - 1 then k + 1 else m

/-- The first loop (mintools.py L853-856) over the rows, latest first; the `alpha` are
returned in the same order. -/
noncomputable def loop1 : List (Pair ι) → Vec ι → Vec ι × List ℝ
  | [], q => (q, [])
  | p :: ps, q =>
    let a := 1 / (p.y ⬝ᵥ p.s) * (p.s ⬝ᵥ q)
    let r := loop1 ps (q - a • p.y)
    (r.1, a :: r.2)

/-- The second loop (mintools.py L872-874) over the rows with their `alpha`, oldest first. -/
noncomputable def loop2 : List (Pair ι × ℝ) → Vec ι → Vec ι
  | [], d => d
  | (p, a) :: ps, d => loop2 ps (d + (a - 1 / (p.y ⬝ᵥ p.s) * (p.y ⬝ᵥ d)) • p.s)

/-- The two loops with the scaling `hk` between them (mintools.py L853-874). -/
noncomputable def twoLoop (hk : ℝ) (rows : List (Pair ι)) (g : Vec ι) : Vec ι :=
  let r := loop1 rows.reverse g
  loop2 (rows.zip r.2.reverse) (hk • r.1)

/-- `hk` (mintools.py L860-867). -/
noncomputable def scaling (scale : Nat) (rows : List (Pair ι)) : ℝ :=
  match scale with
  | 0 => 1
  | 1 => match rows.head? with
    | some p => (p.y ⬝ᵥ p.s) / (p.y ⬝ᵥ p.y)
    | none => 0
  | _ => match rows.getLast? with
    | some p => (p.y ⬝ᵥ p.s) / (p.y ⬝ᵥ p.y)
    | none => 0

/-- The direction the line search is given (mintools.py L804-807). -/
noncomputable def lbfgsDir (g0 d0 : Vec ι) : Vec ι :=
  open Classical in if 0 < g0 ⬝ᵥ d0 then (1 / Real.sqrt (g0 ⬝ᵥ g0)) • g0 else d0

/-- The direction computed at the end of the step (mintools.py L842-885), `rows` being the
rows in use, the latest last. -/
noncomputable def lbfgsNew (scale : Nat) (rows : List (Pair ι)) (dx dg g : Vec ι) : Vec ι :=
  open Classical in
  if curved (1 / 10 ^ 10) dx dg then -(twoLoop (scaling scale rows) rows g) else -dx

/-- What the L-BFGS optimiser carries. -/
structure Lbfgs (ι : Type*) where
  q : Vec ι
  d : Vec ι
  rows : List (Pair ι)

/-- One L-BFGS step, number `k` (mintools.py L774-888, geop.py L627-705).  `d0[:] = d` at L887
writes into the array bound at L807 when the direction was reset, so that the caller's
direction then keeps its old value. -/
noncomputable def lbfgsStep (fdf : Vec ι → ℝ × Vec ι) (big tol : ℝ) (itmax m scale k : Nat)
    (s : Lbfgs ι) : Option (Line ι × Lbfgs ι) :=
  open Classical in
  let g0 := (fdf s.q).2
  (minApprox fdf s.q (fdf s.q).1 g0 (lbfgsDir g0 s.d) (bigStep big s.q) tol itmax).map
    fun r =>
      let dx := r.x - s.q
      let dg := r.g - g0
      let rows := store m k s.rows ⟨dx, dg⟩
      let d := lbfgsNew scale (rows.take (used m k)) dx dg r.g
      (r, ⟨r.at_, if 0 < g0 ⬝ᵥ s.d then s.d else d, rows⟩)

/-- The start (geop.py L609-625, L637-641): the direction of the forces, and rows of zeros. -/
noncomputable def lbfgsInit (fdf : Vec ι → ℝ × Vec ι) (m : Nat) (q : Vec ι) : Lbfgs ι :=
  ⟨q, firstDir (fdf q).2, List.replicate m ⟨0, 0⟩⟩

/-- `n` successive steps from step number `k`. -/
noncomputable def lbfgsRun (fdf : Vec ι → ℝ × Vec ι) (big tol : ℝ) (itmax m scale : Nat) :
    Nat → Nat → Lbfgs ι → Option (Lbfgs ι)
  | _, 0, s => some s
  | k, n + 1, s => (lbfgsStep fdf big tol itmax m scale k s).bind fun r =>
      lbfgsRun fdf big tol itmax m scale (k + 1) n r.2

/-! ### Trust radius -/

/-- `TRM_UPDATE` (mintools.py L657-677) with the change of gradient `dg = -df`. -/
noncomputable def trmUpdate (h : Matrix ι ι ℝ) (dx dg : Vec ι) : Matrix ι ι ℝ :=
  h + ((1 / (dg ⬝ᵥ dx)) • outer dg dg
    - (1 / (dx ⬝ᵥ (h *ᵥ dx))) • outer (h *ᵥ dx) (dx ᵥ* h))

/-- `gE` of `min_trm` (mintools.py L706-716): the forces along the eigenvectors, zero for the
zero modes.  The code cuts out the rows `neg … neg + zero`, which are these since `eigh` sorts
the eigenvalues. -/
noncomputable def trmForce (d g : Vec ι) : Vec ι :=
  open Classical in fun i => if -(1 / 10 ^ 7) ≤ d i ∧ d i < 1 / 10 ^ 7 then 0 else g i

/-- The Newton step of `min_trm` (mintools.py L719-723). -/
noncomputable def trmNewton (d gE : Vec ι) : Vec ι :=
  open Classical in fun i => if 1 / 10 ^ 5 < |d i| then gE i / d i else 0

/-- The shifted step (mintools.py L744). -/
noncomputable def trmShifted (d gE : Vec ι) (lamb : ℝ) : Vec ι := fun i => gE i / (d i + lamb)

/-- One pass of the search for the shift (mintools.py L743-763): `none` to stop, else the new
`lamb_min`, `lamb_max` and `lamb`.  With `gE = 0` the code divides by zero and goes on, and here
it stops; the step is zero either way. -/
noncomputable def trmShift (d gE : Vec ι) (tr lmin lmax lamb : ℝ) : Option (ℝ × ℝ × ℝ) :=
  open Classical in
  let dxe := trmShifted d gE lamb
  let y := dxe ⬝ᵥ dxe - tr ^ 2
  let dy := -2 * ∑ i, dxe i ^ 2 / (d i + lamb)
  if |y / dy| < 1 / 10 ^ 5 ∨ |y| < 1 / 10 ^ 13 then none
  else
    let lmax' := if y < 0 then min lamb lmax else lmax
    let lmin' := if y < 0 then lmin else max lamb lmin
    let l := lamb - y / dy
    some (lmin', lmax', if l ≤ lmin' ∨ lmax' ≤ l then 1 / 2 * (lmin' + lmax') else l)

/-- The passes (mintools.py L743-764); the shift of the last step computed. -/
noncomputable def trmSearch (d gE : Vec ι) (tr : ℝ) : Nat → ℝ → ℝ → ℝ → ℝ
  | 0, _, _, lamb => lamb
  | 1, _, _, lamb => lamb
  | n + 2, lmin, lmax, lamb => match trmShift d gE tr lmin lmax lamb with
    | none => lamb
    | some (a, b, c) => trmSearch d gE tr (n + 1) a b c

/-- `min_trm` in the basis of the eigenvectors (mintools.py L680-768), from the eigenvalues
and the forces along the eigenvectors. -/
noncomputable def minTrm (d g : Vec ι) (tr : ℝ) : Vec ι :=
  open Classical in
  let gE := trmForce d g
  let low := ⨅ i, d i
  if 0 < low ∧ norm (trmNewton d gE) < tr then trmNewton d gE
  else
    let lmin := max 0 (-low)
    trmShifted d gE (trmSearch d gE tr 100 lmin (10 ^ 30)
      (min (lmin + 1 / 2) (1 / 2 * (lmin + 10 ^ 30))))

/-- `a / b > c` in floating point: a quotient by zero is infinite, or nan for `0 / 0`. -/
def quotGt (a b c : ℝ) : Prop := (b ≠ 0 ∧ c < a / b) ∨ (b = 0 ∧ 0 < a)

/-- `a / b < c` in floating point. -/
def quotLt (a b c : ℝ) : Prop := (b ≠ 0 ∧ a / b < c) ∨ (b = 0 ∧ a < 0)

/-- The energy change predicted by the quadratic model (mintools.py L626-629). -/
noncomputable def expected (f0 : Vec ι) (h : Matrix ι ι ℝ) (dx : Vec ι) : ℝ :=
  -(f0 ⬝ᵥ dx) + 1 / 2 * (dx ⬝ᵥ (h *ᵥ dx))

/-- The numerator of `quality` (mintools.py L625, L630, L635-638). -/
noncomputable def gain (u u0 : ℝ) (f f0 dx : Vec ι) : ℝ :=
  open Classical in
  if 1 / 20 < norm dx then u - u0 else -(1 / 2 * (dx ⬝ᵥ (f0 + f)))

/-- The trust radius after a trial (mintools.py L642-647). -/
noncomputable def newRadius (num den dxn tr big : ℝ) : ℝ :=
  open Classical in
  if quotLt num den (1 / 4) then dxn / 2
  else if quotGt num den (3 / 4) ∧ 9 / 10 * tr < dxn then
    if big < 2 * tr then big else 2 * tr
  else tr

/-- One pass of the acceptance loop (mintools.py L615-647): whether it is accepted, the
displacement and the new radius.  `find` is `min_trm(f0, h0, ·)`; the mapper returns energy
and forces. -/
noncomputable def trmPass (map : Vec ι → ℝ × Vec ι) (find : ℝ → Vec ι) (x0 : Vec ι) (u0 : ℝ)
    (f0 : Vec ι) (h0 : Matrix ι ι ℝ) (big tr : ℝ) : Prop × Vec ι × ℝ :=
  let dx := find tr
  let r := map (x0 + dx)
  let num := gain r.1 u0 r.2 f0 dx
  (quotGt num (expected f0 h0 dx) (1 / 10), dx,
    newRadius num (expected f0 h0 dx) (norm dx) tr big)

/-- The acceptance loop (mintools.py L614-647), which has no bound: `none` when it is still
running after the given number of passes. -/
noncomputable def trmLoop (map : Vec ι → ℝ × Vec ι) (find : ℝ → Vec ι) (x0 : Vec ι) (u0 : ℝ)
    (f0 : Vec ι) (h0 : Matrix ι ι ℝ) (big : ℝ) : Nat → ℝ → Option (Vec ι × ℝ)
  | 0, _ => none
  | n + 1, tr =>
    open Classical in
    let p := trmPass map find x0 u0 f0 h0 big tr
    if p.1 then some (p.2.1, p.2.2)
    else trmLoop map find x0 u0 f0 h0 big n p.2.2

/-! ### Damped BFGS -/

/-- The displacement vector of one atom (`sk.reshape(-1, 3)`). -/
def atom {n : Nat} (s : Vec (Fin n × Fin 3)) (i : Fin n) : Vec (Fin 3) := fun k => s (i, k)

/-- The largest displacement of an atom (mintools.py L949). -/
noncomputable def maxDispl {n : Nat} (s : Vec (Fin n × Fin 3)) : ℝ := ⨆ i, norm (atom s i)

/-- The step scaled so that no atom moves more than `big` (mintools.py L951-956). -/
noncomputable def dampLimit {n : Nat} (big : ℝ) (s : Vec (Fin n × Fin 3)) :
    Vec (Fin n × Fin 3) :=
  open Classical in if big < maxDispl s then (big / maxDispl s) • s else s

/-- The change of gradient used (mintools.py L974-987). -/
noncomputable def damped (B : Matrix ι ι ℝ) (s y : Vec ι) : Vec ι :=
  open Classical in
  let sBs := s ⬝ᵥ (B *ᵥ s)
  if s ⬝ᵥ y < 1 / 5 * sBs then
    let theta := (4 / 5 * sBs) / (sBs - s ⬝ᵥ y)
    theta • y + (1 - theta) • (B *ᵥ s)
  else y

/-- The updated Hessian before the diagonal is stabilised (mintools.py L992-999). -/
noncomputable def dampedUpdate (B : Matrix ι ι ℝ) (s y : Vec ι) : Matrix ι ι ℝ :=
  let y' := damped B s y
  B + ((1 / (s ⬝ᵥ y')) • outer y' y' - (1 / (s ⬝ᵥ (B *ᵥ s))) • outer (B *ᵥ s) (B *ᵥ s))

/-- The final Hessian (mintools.py L1005-1008): the outcome of the eigenvalue test is given,
since it depends on the eigenvalue solver. -/
noncomputable def stabilised [DecidableEq ι] (low : Bool) (B : Matrix ι ι ℝ) :
    Matrix ι ι ℝ :=
  if low then B + (1 / 100 : ℝ) • (1 : Matrix ι ι ℝ) else B

/-! ### FIRE -/

/-- The parameters of FIRE (mintools.py L1013-1031) that do not change. -/
structure FirePar where
  maxstep : ℝ
  dtmax : ℝ
  dtmin : ℝ
  ndelay : Nat
  nmax : Nat
  finc : ℝ
  fdec : ℝ
  astart : ℝ
  fa : ℝ

/-- What FIRE carries from one call to the next. -/
structure Fire (ι : Type*) where
  x : Vec ι
  v : Vec ι
  a : ℝ
  ndn : Nat
  nup : Nat
  dt : ℝ

/-- Time step, mixing and counters after the power test (mintools.py L1070-1083). -/
noncomputable def fireAdjust (c : FirePar) (force : Vec ι) (s : Fire ι) : Fire ι :=
  open Classical in
  if 0 < force ⬝ᵥ s.v then
    if c.ndelay < s.ndn + 1 then
      { s with ndn := s.ndn + 1, nup := 0, dt := min (s.dt * c.finc) c.dtmax, a := s.a * c.fa }
    else { s with ndn := s.ndn + 1, nup := 0 }
  else
    let dt := max (s.dt * c.fdec) c.dtmin
    { s with ndn := 0, nup := s.nup + 1, dt := dt, a := c.astart
             x := s.x - (1 / 2 * dt) • s.v, v := 0 }

/-- The new velocity (mintools.py L1090-1094). -/
noncomputable def fireVel (force : Vec ι) (down : Prop) (s : Fire ι) : Vec ι :=
  open Classical in
  let v := s.v + s.dt • force
  if down then (1 - s.a) • v + (s.a * norm v / norm force) • force else v

/-- The displacement, cut to `maxstep` (mintools.py L1096-1100). -/
noncomputable def fireMove (c : FirePar) (dt : ℝ) (v : Vec ι) : Vec ι :=
  open Classical in
  if c.maxstep < norm (dt • v) then (c.maxstep / norm (dt • v)) • (dt • v) else dt • v

/-- One FIRE step (mintools.py L1065-1106); the trigger of the soft exit when stuck is
`fireStuck`. -/
noncomputable def fireStep (c : FirePar) (grad : Vec ι → Vec ι) (s : Fire ι) : Fire ι :=
  let force := -grad s.x
  let t := fireAdjust c force s
  let v := fireVel force (0 < force ⬝ᵥ s.v) t
  { t with x := t.x + fireMove c t.dt v, v := v }

/-- Successive FIRE steps. -/
noncomputable def fireRun (c : FirePar) (grad : Vec ι → Vec ι) : Nat → Fire ι → Fire ι
  | 0, s => s
  | n + 1, s => fireRun c grad n (fireStep c grad s)

/-- The soft exit is triggered (mintools.py L1080-1081). -/
def fireStuck (c : FirePar) (grad : Vec ι → Vec ι) (s : Fire ι) : Prop :=
  ¬ 0 < (-grad s.x) ⬝ᵥ s.v ∧ c.nmax < s.nup + 1

/-! ### Search for a saddle point -/

/-- `alpha` and `lamb` of `nichols` in mode 1 (mintools.py L1577-1603), from the two lowest
eigenvalues. -/
noncomputable def shift (d0 d1 : ℝ) : ℝ × ℝ :=
  open Classical in
  if 0 < d0 then
    if d0 < d1 / 2 then (1, (2 * d0 + d1) / 4) else ((d1 - d0) / d1, (3 * d0 + d1) / 4)
  else if d1 < 0 then
    if d0 / 2 ≤ d1 then (1, (d0 + 2 * d1) / 4) else ((d0 - d1) / d1, (d0 + 3 * d1) / 4)
  else (1, (d0 + d1) / 4)

/-- The displacement along mode `j`, from the gradient along it (mintools.py L1605). -/
noncomputable def modeStep (d0 d1 g d : ℝ) : ℝ := (shift d0 d1).1 * g / ((shift d0 d1).2 - d)

/-- `lamb` of `nichols` in mode 0 (mintools.py L1565-1575), `i` being the lowest mode. -/
noncomputable def minShift {κ : Type*} [Fintype κ] (d g : Vec κ) (i : κ) (big : ℝ) : ℝ :=
  open Classical in
  if d i < 0 ∨ big ^ 2 < ∑ j, (g j / (0 - d j)) ^ 2 then d i - |g i / big| else 0

/-- The displacements along the modes in mode 0 (mintools.py L1571, L1575). -/
noncomputable def minSteps {κ : Type*} [Fintype κ] (d g : Vec κ) (i : κ) (big : ℝ) : Vec κ :=
  fun j => g j / (minShift d g i big - d j)

/-- The displacements along the modes in mode 1 (mintools.py L1577-1605), from the lowest mode
and the next. -/
noncomputable def saddleSteps {κ : Type*} (d g : Vec κ) (i k : κ) : Vec κ :=
  fun j => modeStep (d i) (d k) (g j) (d j)

/-- The gradient along the modes, in mass-weighted coordinates (mintools.py L1552-1560); the
columns of `w` are the modes. -/
noncomputable def modeGrad {κ : Type*} (f m : Vec ι) (w : Matrix ι κ ℝ) : Vec κ :=
  -((fun i => f i / Real.sqrt (m i)) ᵥ* w)

/-- The cartesian displacement (mintools.py L1608-1610). -/
noncomputable def modeMove {κ : Type*} [Fintype κ] (m : Vec ι) (w : Matrix ι κ ℝ) (x : Vec κ) :
    Vec ι := fun i => (w *ᵥ x) i * (1 / Real.sqrt (m i))

/-- `Powell` (mintools.py L1615-1626). -/
noncomputable def powell (d dg : Vec ι) (H : Matrix ι ι ℝ) : Matrix ι ι ℝ :=
  let ddi := 1 / (d ⬝ᵥ d)
  let y := dg - H *ᵥ d
  H + ddi • (outer y d + outer d y - ((y ⬝ᵥ d) * ddi) • outer d d)

/-! ### The optimiser as a motion -/

/-- The convergence test (geop.py L356-398): energies now and before, forces now (zero for the
fixed atoms), positions now and before. -/
def converges (tolE tolF tolX : ℝ) (natoms : Nat) (u u0 : ℝ) (f q q0 : Vec ι) : Prop :=
  |(u - u0) / natoms| ≤ tolE ∧ amax (fun i => |f i|) ≤ tolF ∧ amax (fun i => |q i - q0 i|) ≤ tolX

/-- The motion between two steps: positions, what the optimiser remembers, and its flag. -/
structure Geop (ι σ : Type*) where
  q : Vec ι
  mem : σ
  converged : Prop

/-- What a step of the motion does besides. -/
inductive GeopOut where
  | moved
  | idle
  | finished

/-- `GeopMotion.step` (geop.py L164-180) with an arbitrary optimiser `opt`, which gets the step
number, the positions and its memory; `fixed` are the fixed coordinates. -/
noncomputable def geopStep {σ : Type*} (energy : Vec ι → ℝ) (force : Vec ι → Vec ι)
    (opt : Nat → Vec ι → σ → Vec ι × σ) (fixed : ι → Prop) (natoms : Nat)
    (tolE tolF tolX : ℝ) (exitOn : Bool) (k : Nat) (s : Geop ι σ) : GeopOut × Geop ι σ :=
  open Classical in
  if s.converged then (if exitOn then .finished else .idle, s)
  else
    let r := opt k s.q s.mem
    (.moved, ⟨r.1, r.2, converges tolE tolF tolX natoms (energy r.1) (energy s.q)
      (fun i => if fixed i then 0 else force r.1 i) r.1 s.q⟩)

/-- Successive steps from number `k`, until one finishes the simulation; with the outcome of
the last step. -/
noncomputable def geopRun {σ : Type*} (energy : Vec ι → ℝ) (force : Vec ι → Vec ι)
    (opt : Nat → Vec ι → σ → Vec ι × σ) (fixed : ι → Prop) (natoms : Nat)
    (tolE tolF tolX : ℝ) (exitOn : Bool) : Nat → Nat → Geop ι σ → GeopOut → GeopOut × Geop ι σ
  | _, 0, s, o => (o, s)
  | k, n + 1, s, _ =>
    match geopStep energy force opt fixed natoms tolE tolF tolX exitOn k s with
    | (.finished, s') => (.finished, s')
    | (o, s') => geopRun energy force opt fixed natoms tolE tolF tolX exitOn (k + 1) n s' o

end Verif.QN
