import Verif.FF.Fortran
import Mathlib.Analysis.SpecialFunctions.Trigonometric.DerivHyp

/-!
# The model potentials of the Fortran driver

Model of the potentials given by a formula in `compute_potential` of `/repo/drivers/f90/driver.f90` and in
`/repo/drivers/f90/pes`: `harm`, `harm3d`, `linear`, `morse`, `morsedia`, `eckart`, `MB`, `doublewell`,
`doublewell_1D`, `noo3-h2o`, `qtip4pf-efield`, `lepsm1`.  Numbers are exact reals, atoms and components are numbered from
zero, and constants written in single precision are taken as they are written.  A component of the result
that a routine does not assign keeps its old value and is left out here.
-/

namespace Verif.F90

/-- One `DO i = 1, nat` loop that adds to `pot`. -/
noncomputable def loop (natoms : ℕ) (start : ℝ) (term : ℕ → ℝ) : ℝ :=
  (List.range natoms).foldl (fun pot i => pot + term i) start

/-! ### `compute_potential` of `driver.f90` -/

/-- `vstyle == 3` (`driver.f90` L805-810): `harm`. -/
noncomputable def harm (ks : ℝ) (atoms : ℕ → V3) : Res :=
  let f : ℝ := -ks * atoms 0 0
  ⟨0.5 * ks * atoms 0 0 ^ 2, fun i k => if i = 0 ∧ k = 0 then f else 0,
    Matrix.of fun k l => if k = 0 ∧ l = 0 then f * atoms 0 0 else 0⟩

/-- `vstyle == 40` (L811-829): `harm3d`. -/
noncomputable def harm3d (ks : ℝ) (natoms : ℕ) (atoms : ℕ → V3) : Res :=
  (List.range natoms).foldl
    (fun s i =>
      let f : V3 := fun k => -ks * atoms i k
      ⟨s.pot + 0.5 * ks * atoms i 0 ^ 2 + 0.5 * ks * atoms i 1 ^ 2 + 0.5 * ks * atoms i 2 ^ 2,
        fun j => if j = i then f else s.forces j,
        Matrix.of fun k l => s.virial k l + f k * atoms i l⟩)
    ⟨0, fun _ _ => 0, 0⟩

/-- `vstyle == 7` (L830-835): `linear`. -/
noncomputable def linear (ks : ℝ) (atoms : ℕ → V3) : Res :=
  ⟨ks * atoms 0 0, fun i k => if i = 0 ∧ k = 0 then -ks else 0,
    Matrix.of fun k l => if k = 0 ∧ l = 0 then -ks * atoms 0 0 else 0⟩

/-- The vector `dip` of the molecule whose oxygen is atom `i` (L1032). -/
noncomputable def noo3Dip (atoms : ℕ → V3) (i : ℕ) : V3 := fun k =>
  0.5 * (atoms (i + 1) k + atoms (i + 2) k) - atoms i k

/-- The energy of a molecule with the vector `d` (L1033-1037). -/
noncomputable def noo3Pot (d : V3) : ℝ :=
  let n := √(d 0 ^ 2 + d 1 ^ 2 + d 2 ^ 2)
  2e-2 * (Real.exp (d 0 / n * 1) + Real.exp (d 1 / n * 0.5) + Real.exp (d 2 / n * 2))

/-- `vpars(4:6)` of a molecule with the vector `d` (L1038-1044). -/
noncomputable def noo3Grad (d : V3) : V3 :=
  let n := √(d 0 ^ 2 + d 1 ^ 2 + d 2 ^ 2)
  let v1 := 2e-2 * Real.exp (d 0 / n * 1) * 1 / n ^ 3
  let v2 := 2e-2 * Real.exp (d 1 / n * 0.5) * 0.5 / n ^ 3
  let v3 := 2e-2 * Real.exp (d 2 / n * 2) * 2 / n ^ 3
  ![-v1 * (d 1 ^ 2 + d 2 ^ 2) + v2 * d 0 * d 1 + v3 * d 2 * d 0,
    -v2 * (d 0 ^ 2 + d 2 ^ 2) + v1 * d 0 * d 1 + v3 * d 1 * d 2,
    -v3 * (d 0 ^ 2 + d 1 ^ 2) + v1 * d 0 * d 2 + v2 * d 2 * d 1]

/-- `vstyle == 70` (L1022-1056): `noo3-h2o`, for `nmol` molecules.  Energy and forces; the virial is not assigned. -/
noncomputable def noo3 (nmol : ℕ) (atoms : ℕ → V3) : ℝ × (ℕ → V3) :=
  (List.range nmol).foldl
    (fun s m =>
      let i := 3 * m
      let d := noo3Dip atoms i
      let g := noo3Grad d
      (s.1 + noo3Pot d, fun j k =>
        if j = i then s.2 j k - g k
        else if j = i + 1 then s.2 j k + g k * 0.5
        else if j = i + 2 then s.2 j k + g k * 0.5
        else s.2 j k))
    (0, fun _ _ => 0)

/-! ### `pes/morse.f` -/

/-- The energy as a function of the distance (`morse.f` L6-7, L17-18). -/
noncomputable def morseV (r0 D a nq : ℝ) : ℝ :=
  D * (Real.exp (-2 * a * (nq - r0)) - 2 * Real.exp (-a * (nq - r0)))

/-- `getmorse` (L1-9). -/
noncomputable def morse (r0 D a : ℝ) (q : V3) : ℝ × V3 :=
  let nq := √(q 0 ^ 2 + q 1 ^ 2 + q 2 ^ 2)
  let dr := nq - r0
  (morseV r0 D a nq, fun k => -2 * a * D * (Real.exp (-a * dr) - Real.exp (-2 * a * dr)) * q k / nq)

/-- `getmorsedia` (L11-22). -/
noncomputable def morsedia (r0 D a : ℝ) (q : ℕ → V3) : ℝ × (ℕ → V3) :=
  let diff : V3 := fun k => q 0 k - q 1 k
  let nq := √(diff 0 ^ 2 + diff 1 ^ 2 + diff 2 ^ 2)
  let dr := nq - r0
  (morseV r0 D a nq, fun i k =>
    if i = 0 then -2 * a * D * (Real.exp (-a * dr) - Real.exp (-2 * a * dr)) * diff k / nq
    else if i = 1 then 2 * a * D * (Real.exp (-a * dr) - Real.exp (-2 * a * dr)) * diff k / nq
    else 0)

/-! ### `pes/eckart.f90` -/

/-- `geteckart` (L19-57). -/
noncomputable def eckart (AA A BB k : ℝ) (natoms : ℕ) (q : ℕ → V3) : ℝ × (ℕ → V3) :=
  (List.range natoms).foldl
    (fun s i =>
      let x := q i 0
      let y := q i 1
      let z := q i 2
      let first : ℝ × ℝ :=
        if i = 0 then
          let EC := Real.exp (-2 * x / A)
          (AA / (1 + Real.exp (-2 * x / A)) + BB / Real.cosh (x / A) ^ 2,
            -(AA * EC / (1 + EC) ^ 2 + -BB * Real.sinh (x / A) / Real.cosh (x / A) ^ 3) * (2 / A))
        else (s.1 + 0.5 * k * x ^ 2, -k * x)
      (first.1 + 0.5 * k * y ^ 2 + 0.5 * k * z ^ 2,
        fun j => if j = i then ![first.2, -k * y, -k * z] else s.2 j))
    (0, fun _ _ => 0)

/-! ### `pes/MB.f90` -/

/-- The parameters `A0`, `a`, `b`, `c`, `x0`, `y0` of the four wells (`MB.f90` L19-24). -/
noncomputable def mbPars : Fin 4 → ℝ × ℝ × ℝ × ℝ × ℝ × ℝ :=
  ![(-200, -1, 0, -10, 1, 0), (-100, -1, 0, -10, 0, 0.5), (-170, -6.5, 11, -6.5, -0.5, 1.5), (15, 0.7, 0.6, 0.7, -1, 1)]

/-- A term `V(w)` (L26, L37-40) with its derivatives `gx(w)`, `gy(w)` (L42-51). -/
noncomputable def mbTerm (scaling : ℝ) (w : Fin 4) (x y : ℝ) : ℝ × ℝ × ℝ :=
  let (A0, a, b, c, x0, y0) := mbPars w
  let V := A0 * scaling * Real.exp (a * (x - x0) ^ 2 + b * (x - x0) * (y - y0) + c * (y - y0) ^ 2)
  (V, V * (2 * a * (x - x0) + b * (y - y0)), V * (b * (x - x0) + 2 * c * (y - y0)))

/-- The force constant of several potentials (`MB.f90` L17, `doublewell_1D.f90` L13). -/
noncomputable def kH : ℝ := 1836 * (3800 / 219323) ^ 2

/-- `get_MB` (L6-66) for the one atom that `compute_potential` accepts (`driver.f90` L1112-1115).  The argument `scaling`
is overwritten (L16). -/
noncomputable def muellerBrown (_scaling : ℝ) (q : V3) : ℝ × V3 :=
  let scaling : ℝ := 0.004737803248674678
  let t := fun w => mbTerm scaling w (q 0) (q 1)
  (0.5 * kH * q 2 ^ 2 + (t 0).1 + (t 1).1 + (t 2).1 + (t 3).1,
    ![-(t 0).2.1 - (t 1).2.1 - (t 2).2.1 - (t 3).2.1, -(t 0).2.2 - (t 1).2.2 - (t 2).2.2 - (t 3).2.2, -kH * q 2])

/-! ### `pes/doublewell.f90`, `pes/doublewell_1D.f90` -/

/-- `A` (`doublewell.f90` L20). -/
noncomputable def dwA : ℝ := -0.00476705894242374

/-- `B` (`doublewell.f90` L21). -/
noncomputable def dwB : ℝ := 0.0005980249683218661

/-- The force along one component (`doublewell.f90` L26-28). -/
noncomputable def dwF (x : ℝ) : ℝ := -(2 * dwA * x + 4 * dwB * x ^ 3)

/-- `getdoublewell` (`doublewell.f90` L4-37). -/
noncomputable def doublewell (natoms : ℕ) (q : ℕ → V3) : ℝ × (ℕ → V3) :=
  (List.range natoms).foldl
    (fun s i =>
      (s.1 + (dwA * q i 0 ^ 2 + dwB * q i 0 ^ 4) + (dwA * q i 1 ^ 2 + dwB * q i 1 ^ 4)
          + (dwA * q i 2 ^ 2 + dwB * q i 2 ^ 4),
        fun j => if j = i then ![dwF (q i 0), dwF (q i 1), dwF (q i 2)] else s.2 j))
    (0, fun _ _ => 0)

/-- `getdoublewell_1D` (`doublewell_1D.f90` L4-41): `pot` is set to zero for every atom (L20). -/
noncomputable def doublewell1D (natoms : ℕ) (q : ℕ → V3) : ℝ × (ℕ → V3) :=
  (List.range natoms).foldl
    (fun s i =>
      let pot : ℝ := 0
      (pot + 0.5 * kH * q i 1 ^ 2 + 0.5 * kH * q i 2 ^ 2 + (dwA * q i 0 ^ 2 + dwB * q i 0 ^ 4),
        fun j => if j = i then ![dwF (q i 0), -kH * q i 1, -kH * q i 2] else s.2 j))
    (0, fun _ _ => 0)

/-- The places that `dw_friction` and `dw1d_friction` write (`doublewell.f90` L46-56, `doublewell_1D.f90` L70-80), in order:
row, column and value.  Rows and columns are numbered from zero. -/
def frictionWrites (natoms : ℕ) (q : ℕ → V3) : List (ℕ × ℕ × ℝ) :=
  (List.range natoms).flatMap fun i => (List.range natoms).flatMap fun j =>
    (List.finRange 3).flatMap fun qi : Fin 3 => (List.finRange 3).map fun qj : Fin 3 =>
      (i * natoms + (qi : ℕ), j * natoms + (qj : ℕ), q i qi * q j qj)

/-- The friction that results from the array `old`. -/
def dwFriction (natoms : ℕ) (q : ℕ → V3) (old : ℕ → ℕ → ℝ) : ℕ → ℕ → ℝ :=
  (frictionWrites natoms q).foldl
    (fun m w => fun r c => if r = w.1 ∧ c = w.2.1 then w.2.2 else m r c) old

/-! ### `pes/efield.f90` -/

/-- `alpha` (`efield.f90` L39). -/
noncomputable def efAlpha : ℝ := 0.73612

/-- `alpha2` (L49). -/
noncomputable def efAlpha2 : ℝ := 0.5 * (1 - efAlpha)

/-- The charges (L40-41, L86-90). -/
noncomputable def efCharge (i : ℕ) : ℝ := if i % 3 = 0 then -1.1128 else 0.5 * 1.1128

/-- The positions of the charges (L74-80). -/
noncomputable def efSite (rt : ℕ → V3) (i : ℕ) : V3 := fun j =>
  if i % 3 = 0 then efAlpha * rt i j + efAlpha2 * (rt (i + 1) j + rt (i + 2) j) else rt i j

/-- `dvdr` after the loop over the charges (L98) and the chain rule (L112-120). -/
noncomputable def efDvdr (E : V3) (i : ℕ) : V3 := fun j =>
  let site := fun i : ℕ => efCharge i * E j
  if i % 3 = 0 then efAlpha * site i
  else site i + efAlpha2 * site (i - i % 3)

/-- `efield_v` (L19-127) for `nmol` molecules. -/
noncomputable def efield (E : V3) (nmol : ℕ) (rt : ℕ → V3) : Res :=
  ⟨loop (3 * nmol) 0 fun i => -(efCharge i * efSite rt i ⬝ᵥ E),
    fun i k => -efDvdr E i k,
    Matrix.of fun j k => -1 * loop (3 * nmol) 0 fun i => -(efSite rt i j * (efCharge i * E k))⟩

/-! ### `pes/LEPS.f90` -/

/-- `V_LEPS` (`LEPS.f90` L82-117): `r` gives the distances between the atoms `i` and `i + 1` of the ring, `d` and `acb` the
parameters. -/
noncomputable def vLeps (acb d : Fin 3 → ℝ) (r0 alpha : ℝ) (r : Fin 3 → ℝ) : ℝ :=
  let Q := fun i => d i / 2 * (3 / 2 * Real.exp (-2 * alpha * (r i - r0)) - Real.exp (-1 * alpha * (r i - r0)))
  let J := fun i => d i / 4 * (Real.exp (-2 * alpha * (r i - r0)) - 6 * Real.exp (-1 * alpha * (r i - r0))) / (1 + acb i)
  Q 0 / (1 + acb 0) + Q 1 / (1 + acb 1) + Q 2 / (1 + acb 2)
    - √(J 0 ^ 2 - J 0 * J 1 + (J 1 ^ 2 - J 1 * J 2) + (J 2 ^ 2 - J 2 * J 0))

/-- The distance of two atoms (`DIST`, L120-127). -/
noncomputable def lepsDist (p1 p2 : V3) : ℝ := √((p1 0 - p2 0) ^ 2 + (p1 1 - p2 1) ^ 2 + (p1 2 - p2 2) ^ 2)

/-- The energy of `LEPS_M1` (L16-18, L25). -/
noncomputable def lepsM1V (atoms : Fin 3 → V3) : ℝ :=
  vLeps ![0.05, 0.05, 0.3] ![4.746, 4.746, 3.445] 0.742 1.942 fun i => lepsDist (atoms i) (atoms (i + 1))

/-- An atom displaced along the first axis (L30-33). -/
noncomputable def lepsMoved (atoms : Fin 3 → V3) (i : Fin 3) (dx : ℝ) : Fin 3 → V3 := fun a k =>
  if a = i ∧ k = 0 then atoms a k + dx else atoms a k

/-- `LEPS_M1` (L9-39). -/
noncomputable def lepsM1 (atoms : Fin 3 → V3) : ℝ × (Fin 3 → V3) :=
  (lepsM1V atoms, fun i k =>
    if i ≠ 0 ∧ k = 0 then
      1 * (lepsM1V (lepsMoved atoms i 1e-4) - lepsM1V (lepsMoved atoms i (-1e-4))) / (4 * 1e-4)
    else 0)

/-! ### `LJPolymer.f90` -/

/-- `Har_functions` (`LJPolymer.f90` L58-80). -/
noncomputable def harFunctions (stiffness x0 r : ℝ) : ℝ × ℝ :=
  (0.5 * stiffness * (r - x0) ^ 2, -1 * stiffness * (r - x0))

/-- The atoms that `LJPolymer_getall` bonds to the atom before (L245-247): atom `i` here is atom `i + 1` there. -/
def bonds (npoly natoms : ℕ) : List ℕ := (List.range' 1 (natoms - 1)).filter fun i => (i + 1) % npoly ≠ 1

/-- The body of the loop over the bonds (L248-260).  `junk k l` is the product `fhar2(k)*rhar2(l)` of two variables that are
never set. -/
noncomputable def addBond (junk : M3) (stiffness x0 : ℝ) (atoms : ℕ → V3) (h ih : M3) (s : Res) (i : ℕ) : Res :=
  let rhar := vectorSeparation h ih (atoms i) (atoms (i - 1))
  let r21 := rhar ⬝ᵥ rhar
  let p := harFunctions stiffness x0 (√r21)
  let fhar : V3 := fun k => p.2 * rhar k / √r21
  { pot := s.pot + p.1
    forces := fun a =>
      let f1 := if a = i then s.forces a + fhar else s.forces a
      if a = i - 1 then f1 - fhar else f1
    virial := Matrix.of fun k l => if k ≤ l then s.virial k l + fhar k * rhar l + junk k l else s.virial k l }

/-- `LJPolymer_getall` (L201-294), from zero (`driver.f90` L1164-1166). -/
noncomputable def ljpolymerGetall (junk : M3) (npoly : ℕ) (sigma eps stiffness rc : ℝ) (natoms : ℕ) (atoms : ℕ → V3) (h ih : M3)
    (lists : List ℕ × List ℕ) : Res :=
  let s0 := (bonds npoly natoms).foldl (addBond junk stiffness sigma atoms h ih) ⟨0, fun _ _ => 0, 0⟩
  let s := (pairs natoms lists).foldl (addPair (fun _ _ => ljFunctions sigma eps) rc atoms h ih) s0
  let t := ljLongrange sigma eps natoms rc (h 0 0 * h 1 1 * h 2 2)
  ⟨s.pot + t.1, s.forces, Matrix.of fun k l => if k = l then s.virial k l + t.2 else s.virial k l⟩

end Verif.F90
