import Mathlib.Algebra.BigOperators.Intervals
import Mathlib.Algebra.Order.Floor.Semiring
import Mathlib.Algebra.Order.Floor.Ring
import Mathlib.Analysis.SpecialFunctions.Trigonometric.Basic
import Mathlib.Data.Real.Sqrt

/-!
# Radial distribution functions with perturbed path integrals

Model of `/repo/tools/py/rdf_ppi.py` and of the subroutine `UpdateQRDF` of
`/repo/tools/f90/fortran.f90` that it needs, with exact real numbers.
-/

namespace Verif.RdfPpi

open Finset

/-- A vector. -/
abbrev V3 := Fin 3 → ℝ

/-- What is fixed in a run: the bins, the range, the masses of the two species, the closest image of a
difference of positions (`CalcMinDist`, `tools/f90/fortran.f90` L179-209, modelled elsewhere for other
programs and left open here), the number of beads, the frames left out, the temperature and the
constants. -/
structure Setup where
  nbins : ℕ
  rmin : ℝ
  rmax : ℝ
  mass1 : ℝ
  mass2 : ℝ
  mic : V3 → V3
  nbeads : ℕ
  skip : ℕ
  temp : ℝ
  kb : ℝ
  hbar : ℝ

/-- `dr` (`rdf_ppi.py` L98). -/
noncomputable def Setup.dr (S : Setup) : ℝ := (S.rmax - S.rmin) / S.nbins

/-- The first column of `rdf`: the middle of the bin `i` (`rdf_ppi.py` L99-101). -/
noncomputable def Setup.mid (S : Setup) (i : ℕ) : ℝ := S.rmin + (0.5 + i) * S.dr

/-- One frame: atoms of the two species, their positions and forces for each bead, the sum of squared
forces over masses (`f2divm`) and the volume of the cell (`rdf_ppi.py` L130-170). -/
structure Frame where
  nat1 : ℕ
  nat2 : ℕ
  x1 : ℕ → ℕ → V3
  x2 : ℕ → ℕ → V3
  f1 : ℕ → ℕ → V3
  f2 : ℕ → ℕ → V3
  ff : ℝ
  vol : ℝ

/-- The histograms: `rdf[:, 1]`, `f2rdf`, `frdf`, and the sum `f2` (`rdf_ppi.py` L99-119). -/
structure Acc where
  g : ℕ → ℝ
  f2g : ℕ → ℝ
  fg : ℕ → ℝ
  f2 : ℝ

/-- All zero. -/
noncomputable def Acc.zero : Acc := ⟨fun _ => 0, fun _ => 0, fun _ => 0, 0⟩

/-- Adding to one place of an array. -/
noncomputable def bump (a : ℕ → ℝ) (i : ℕ) (x : ℝ) : ℕ → ℝ := fun j => if j = i then a j + x else a j

/-- The length of the closest image. -/
noncomputable def len (v : V3) : ℝ := √(∑ k, v k * v k)

/-- `norm` (`tools/f90/fortran.f90` L144-148): whether the species are the same is told by the
masses. -/
noncomputable def norm (S : Setup) (x : Frame) : ℝ :=
  open Classical in
  if S.mass1 = S.mass2 then 1 / ((x.nat1 : ℝ) * ((x.nat2 : ℝ) - 1)) else 1 / ((x.nat1 : ℝ) * x.nat2)

/-- The body of the three loops of `UpdateQRDF` (`tools/f90/fortran.f90` L155-169) for one bead and one
pair.  Bins are counted from zero; `INT` of a positive number is its floor.  `deltar` is the distance of
the first two middles, which is `dr`. -/
noncomputable def pair (S : Setup) (x : Frame) (s : Acc) (p : ℕ × ℕ × ℕ) : Acc :=
  open Classical in
  let v := S.mic (fun k => x.x1 p.1 p.2.1 k - x.x2 p.1 p.2.2 k)
  let d := len v
  let c := norm S x
  if d < S.rmax ∧ S.rmin < d then
    let ig := ⌊(d - S.rmin) / S.dr⌋₊
    let g := bump s.g ig (1 * c)
    let f2g := bump s.f2g ig (x.ff * c)
    if 0.00001 < d then
      let t := (∑ k, (x.f1 p.1 p.2.1 k / S.mass1 - x.f2 p.1 p.2.2 k / S.mass2) * v k) / (d * S.dr)
      let fg1 := if 0 < ig then bump s.fg (ig - 1) (-(t * c)) else s.fg
      let fg2 := if ig + 1 < S.nbins then bump fg1 (ig + 1) (t * c) else fg1
      ⟨g, f2g, fg2, s.f2⟩
    else ⟨g, f2g, s.fg, s.f2⟩
  else s

/-- The beads and pairs in the order of the loops (`tools/f90/fortran.f90` L152-154). -/
def pairs (S : Setup) (x : Frame) : List (ℕ × ℕ × ℕ) :=
  (List.range S.nbeads).flatMap fun b =>
    (List.range x.nat1).flatMap fun i => (List.range x.nat2).map fun j => (b, i, j)

/-- One frame (`rdf_ppi.py` L147-191). -/
noncomputable def addFrame (S : Setup) (s : Acc) (x : Frame) : Acc :=
  (pairs S x).foldl (pair S x) ⟨s.g, s.f2g, s.fg, s.f2 + x.ff⟩

/-- One row of the two files: the distance, the plain function and the corrected one. -/
structure Row where
  r : ℝ
  rdf : ℝ
  rdfQ : ℝ

/-- The volume of a shell over `4 pi / 3`. -/
noncomputable def shell (S : Setup) (i : ℕ) : ℝ := (S.mid i + 0.5 * S.dr) ^ 3 - (S.mid i - 0.5 * S.dr) ^ 3

/-- What is written (`rdf_ppi.py` L199-248) from the sums over `k` frames, with the volume of the last
frame.  Simplification: the conversion of the first column to the unit of the user is left out. -/
noncomputable def write (S : Setup) (s : Acc) (k : ℕ) (vol : ℝ) (i : ℕ) : Row :=
  let const : ℝ := 1 / k
  let alpha := S.hbar ^ 2 / (24 * (S.nbeads : ℝ) ^ 3 * (S.temp * S.kb) ^ 3)
  let beta := S.hbar ^ 2 / (12 * (S.nbeads : ℝ) ^ 3 * (S.temp * S.kb) ^ 2)
  let rdf := s.g i * (const / S.nbeads)
  let f2 := s.f2 * alpha * const
  let f2rdf := s.f2g i * (alpha * const)
  let frdf := s.fg i * (beta * const)
  let rdfQ := rdf + (rdf * f2 - f2rdf / S.nbeads) - frdf / 2
  let c := vol / (4 * Real.pi / 3)
  ⟨S.mid i, c * rdf / shell S i, c * rdfQ / shell S i⟩

/-- The loop over the frames (`rdf_ppi.py` L125-248); `file` is what the files hold. -/
noncomputable def loop (S : Setup) (ifr : ℕ) (s : Acc) (file : Option (ℕ → Row)) :
    List Frame → Option (ℕ → Row)
  | [] => file
  | x :: xs =>
    let s' := if S.skip ≤ ifr then addFrame S s x else s
    let ifr' := ifr + 1
    let file' := if S.skip < ifr' ∧ ifr' % 100 = 0 then some (write S s' (ifr' - S.skip) x.vol) else file
    loop S ifr' s' file' xs

/-- `RDF` (`rdf_ppi.py` L37-248): the files after the run, `none` if nothing has been written. -/
noncomputable def run (S : Setup) (xs : List Frame) : Option (ℕ → Row) := loop S 0 Acc.zero none xs

end Verif.RdfPpi
