import Mathlib.Data.Real.Basic
import Mathlib.Algebra.BigOperators.Fin
import Mathlib.Data.Nat.Notation

/-!
# Effective temperatures

Model of `/repo/tools/py/effective_temperatures.py` (L31-124) with exact real numbers.  The frames of
the force files, in atomic units, are given (`read_file` is modelled in `Verif.Io.Traj`); all have the
same `N` atoms.  The text of the numbers is left out.
-/

namespace Verif.EffTemp

open Finset

variable {N : ℕ}

/-- The forces of one bead in one frame. -/
abbrev Forces (N : ℕ) := Fin N → Fin 3 → ℝ

/-- L81-88: one frame of every file is read, one file after the other; `none` is the `EOFError` of a
file that has ended. -/
def readRow : List (List (Forces N)) → Option (List (Forces N) × List (List (Forces N)))
  | [] => some ([], [])
  | [] :: _ => none
  | (x :: xs) :: fs =>
    match readRow fs with
    | none => none
    | some (r, t) => some (x :: r, xs :: t)

/-- L93-97: what one frame adds, `f2`, for all degrees of freedom. -/
noncomputable def f2 (m : Fin N → ℝ) (r : List (Forces N)) : Forces N :=
  fun a d => (r.map fun f => f a d ^ 2 / m a).sum

/-- The state of the loop: `ifr` and `f2_av`. -/
structure State (N : ℕ) where
  ifr : ℕ
  sum : Forces N

/-- L76-103: the loop until one of the files has ended.  The first argument bounds the number of
frames. -/
noncomputable def loop (m : Fin N → ℝ) (skip : ℕ) : ℕ → List (List (Forces N)) → State N → State N
  | 0, _, s => s
  | fuel + 1, files, s =>
    match readRow files with
    | none => s
    | some (r, rest) =>
      loop m skip fuel rest
        (if skip ≤ s.ifr then ⟨s.ifr + 1, fun a d => s.sum a d + f2 m r a d⟩ else ⟨s.ifr + 1, s.sum⟩)

/-- What the script ends with. -/
inductive Outcome (N : ℕ)
  /-- The effective temperatures in the three directions and their average, for every atom. -/
  | printed (rows : Fin N → (Fin 3 → ℝ) × ℝ)
  /-- `nan` for every atom (zero divided by zero in an array). -/
  | nan
  /-- `const * None`. -/
  | typeError
  /-- Division of a python number by zero. -/
  | zeroDivision

/-- `effectiveTemperatures` (L31-124).  `kb` and `hbar` are the constants, `unit` is the size of a
kelvin, `temp` is the temperature in kelvin, `m` are the masses read from the first file.
The value `f2_av` is `None` if no frame has been read from the first file. -/
noncomputable def effectiveTemperatures (kb hbar unit : ℝ) (m : Fin N → ℝ) (temp : ℝ) (skip : ℕ)
    (files : List (List (Forces N))) : Outcome N :=
  open Classical in
  let temperature := temp * unit
  let nbeads : ℝ := files.length
  let denom := 12 * (nbeads * kb * temperature) ^ 3
  if denom = 0 then .zeroDivision
  else
    let const := hbar ^ 2 / denom
    match files with
    | [] => .zeroDivision
    | [] :: _ => .typeError
    | (x :: xs) :: fs =>
      let s := loop m skip ((x :: xs).length + 1) ((x :: xs) :: fs) ⟨0, fun _ _ => 0⟩
      if s.ifr = skip then .nan
      else
        let dT : Forces N := fun a d => const * s.sum a d / ((s.ifr : ℝ) - skip)
        let t := temperature / unit
        .printed fun a => (fun d => t * (1 + dT a d), t * (1 + (∑ d, dT a d) / 3))

end Verif.EffTemp
