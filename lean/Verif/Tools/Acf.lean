/-
Model of the calculation of autocorrelation functions from trajectories.

Code: /repo/ipi/utils/tools/acf_xyz.py L6-158 (`compute_acf_xyz`),
      /repo/tools/py/getacf.py L103-123 (the command line).

Simplifications: numbers are reals; `numpy.fft.rfft`, `irfft` and `hfft` are given by the sums that
define them; the frames are functions from the number of the frame and of the coordinate (an atom
that was chosen and a direction) to reals; reading of the file is in `Verif.Io.Traj`.
-/
import Verif.Phys.TrigSums

namespace Verif.Acf

open Real Finset

/-! ### The arguments -/

/-- /repo/ipi/utils/tools/acf_xyz.py L38: `mlag = maximum_lag or 100`. -/
def lagOf (maximumLag : Option ℤ) : ℤ :=
  match maximumLag with
  | none => 100
  | some m => if m = 0 then 100 else m

/-- /repo/ipi/utils/tools/acf_xyz.py L39: `bsize = block_length or (2 * mlag + 1)`. -/
def blockOf (mlag : ℤ) (blockLength : Option ℤ) : ℤ :=
  match blockLength with
  | none => 2 * mlag + 1
  | some b => if b = 0 then 2 * mlag + 1 else b

/-- /repo/ipi/utils/tools/acf_xyz.py L38-56: the length of the blocks, or an exception.
`blockLength = none` is the default of the function; the command line passes `-1` unless told
otherwise (/repo/tools/py/getacf.py L40-46). -/
def sizes (maximumLag blockLength : Option ℤ) (npad : ℤ) : Except String (ℤ × ℤ) :=
  let mlag := lagOf maximumLag
  let bsize := blockOf mlag blockLength
  if mlag ≤ 0 then .error "MAXIMUM_LAG"
  else if npad < 0 then .error "LENGTH_ZEROPADDING"
  else if bsize < 2 * mlag then
    if bsize = -1 then .ok (mlag, 2 * mlag) else .error "LENGTH_BLOCK"
  else .ok (mlag, bsize)

/-! ### One block -/

/-- The real part of entry `j` of `numpy.fft.rfft` (/repo/ipi/utils/tools/acf_xyz.py L119) of `n`
numbers. -/
noncomputable def rfftRe (n : ℕ) (x : ℕ → ℝ) (j : ℕ) : ℝ :=
  ∑ i ∈ range n, x i * cos (2 * π * j * i / n)

/-- The imaginary part of entry `j` of `numpy.fft.rfft` (/repo/ipi/utils/tools/acf_xyz.py L119). -/
noncomputable def rfftIm (n : ℕ) (x : ℕ → ℝ) (j : ℕ) : ℝ :=
  -∑ i ∈ range n, x i * sin (2 * π * j * i / n)

/-- /repo/ipi/utils/tools/acf_xyz.py L122: `fdata * np.conjugate(fdata)`; it is real. -/
noncomputable def power (n : ℕ) (x : ℕ → ℝ) (j : ℕ) : ℝ := rfftRe n x j ^ 2 + rfftIm n x j ^ 2

/-- `numpy.fft.irfft` of the `h + 1` real numbers `a 0`, …, `a h`: the result has `2 h` entries
(/repo/ipi/utils/tools/acf_xyz.py L130). -/
noncomputable def irfft (h : ℕ) (a : ℕ → ℝ) (t : ℕ) : ℝ :=
  (a 0 + ∑ j ∈ range (h - 1), 2 * a (j + 1) * cos (2 * π * (j + 1 : ℕ) * t / (2 * h : ℕ))
    + a h * cos (2 * π * h * t / (2 * h : ℕ))) / (2 * h : ℕ)

/-- `numpy.fft.hfft` of the `h + 1` real numbers `a 0`, …, `a h`: the result has `2 h` entries
(/repo/ipi/utils/tools/acf_xyz.py L136). -/
noncomputable def hfft (h : ℕ) (a : ℕ → ℝ) (j : ℕ) : ℝ :=
  a 0 + ∑ t ∈ range (h - 1), 2 * a (t + 1) * cos (2 * π * j * (t + 1 : ℕ) / (2 * h : ℕ))
    + a h * cos (2 * π * j * h / (2 * h : ℕ))

/-- /repo/ipi/utils/tools/acf_xyz.py L125-127: `mfvvacf`, the mean over the `na` atoms and the three
directions times three and some factors; `data i c` is coordinate `c < 3 na` in frame `i`. -/
noncomputable def meanPower (bsize na : ℕ) (dt : ℝ) (data : ℕ → ℕ → ℝ) (j : ℕ) : ℝ :=
  3 * ((∑ c ∈ range (3 * na), power bsize (fun i => data i c) j) / (3 * na : ℕ)) * dt / (2 * π)
    / bsize

/-- /repo/ipi/utils/tools/acf_xyz.py L130: `mvvacf`; `rfft` has `bsize // 2 + 1` entries. -/
noncomputable def blockAcf (bsize na : ℕ) (dt : ℝ) (data : ℕ → ℕ → ℝ) (t : ℕ) : ℝ :=
  irfft (bsize / 2) (meanPower bsize na dt data) t

/-- The windows of /repo/ipi/utils/tools/acf_xyz.py L92-101. -/
inductive Window | none | hanning | hamming | blackman | bartlett
  deriving DecidableEq

/-- Entry `mlag + t` of the window with `2 mlag + 1` entries, `win[mlag:]` in
/repo/ipi/utils/tools/acf_xyz.py L92-101 and L133: the formulas of the documentation of numpy with
`M = 2 mlag + 1` and `n = mlag + t`. -/
noncomputable def window (w : Window) (mlag t : ℕ) : ℝ :=
  let M : ℝ := 2 * mlag + 1
  let n : ℝ := mlag + t
  match w with
  | .none => 1
  | .hanning => 0.5 - 0.5 * cos (2 * π * n / (M - 1))
  | .hamming => 0.54 - 0.46 * cos (2 * π * n / (M - 1))
  | .blackman => 0.42 - 0.5 * cos (2 * π * n / (M - 1)) + 0.08 * cos (4 * π * n / (M - 1))
  | .bartlett => 2 / (M - 1) * ((M - 1) / 2 - |n - (M - 1) / 2|)

/-- /repo/ipi/utils/tools/acf_xyz.py L133: `mpvvacf`, with zeros after the last lag. -/
noncomputable def padded (w : Window) (mlag : ℕ) (a : ℕ → ℝ) (t : ℕ) : ℝ :=
  if t ≤ mlag then a t * window w mlag t else 0

/-- /repo/ipi/utils/tools/acf_xyz.py L136: `mfpvvacf`. -/
noncomputable def blockFt (w : Window) (mlag npad : ℕ) (a : ℕ → ℝ) (j : ℕ) : ℝ :=
  hfft (mlag + npad) (padded w mlag a) j

/-- /repo/ipi/utils/tools/acf_xyz.py L116: `np.gradient(data, axis=0) / dt` of a block of `n`
frames: central differences inside, one-sided differences at the ends. -/
noncomputable def gradient (n : ℕ) (dt : ℝ) (x : ℕ → ℝ) (i : ℕ) : ℝ :=
  (if i = 0 then x 1 - x 0
   else if i + 1 = n then x i - x (i - 1)
   else (x (i + 1) - x (i - 1)) / 2) / dt

/-! ### All blocks -/

/-- A frame: the chosen coordinates. -/
abbrev Frame := ℕ → ℝ

/-- The array `data` after the block has been read (/repo/ipi/utils/tools/acf_xyz.py L111-116). -/
noncomputable def blockData (bsize : ℕ) (dt : ℝ) (der : Bool) (fs : List Frame) : ℕ → ℕ → ℝ :=
  fun i c =>
    if der then gradient bsize dt (fun k => fs.getD k (fun _ => 0) c) i
    else fs.getD i (fun _ => 0) c

/-- /repo/ipi/utils/tools/acf_xyz.py L108-147: the loop over the blocks; `g` is what is added for one
block.  A block that is not complete ends the loop.  The first argument bounds the number of
blocks. -/
noncomputable def accum (bsize : ℕ) (g : List Frame → ℝ) : ℕ → List Frame → ℝ × ℕ → ℝ × ℕ
  | 0, _, acc => acc
  | fuel + 1, fs, (s, n) =>
    if fs.length < bsize then (s, n)
    else accum bsize g fuel (fs.drop bsize) (s + g fs, n + 1)

/-- What the function is asked for. -/
structure Args where
  mlag : ℕ
  bsize : ℕ
  npad : ℕ
  win : Window
  dt : ℝ
  skip : ℕ
  der : Bool
  /-- The number of atoms that have been chosen. -/
  na : ℕ

/-- /repo/ipi/utils/tools/acf_xyz.py L103-155: the average of `g` over the blocks; an exception if
there are not even the frames that are skipped, `none` for `0 / 0`. -/
noncomputable def average (a : Args) (g : List Frame → ℝ) (frames : List Frame) :
    Except String (Option ℝ) :=
  if frames.length < a.skip then .error "EOFError"
  else
    let (s, n) := accum a.bsize g frames.length (frames.drop a.skip) (0, 0)
    .ok (if n = 0 then none else some (s / n))

/-- /repo/ipi/utils/tools/acf_xyz.py L155: `vvacf[t]`, `t ≤ mlag`. -/
noncomputable def acf (a : Args) (frames : List Frame) (t : ℕ) : Except String (Option ℝ) :=
  average a (fun fs => blockAcf a.bsize a.na a.dt (blockData a.bsize a.dt a.der fs) t) frames

/-- /repo/ipi/utils/tools/acf_xyz.py L151: `fvvacf[j]`, `j < 2 (mlag + npad)`. -/
noncomputable def ft (a : Args) (frames : List Frame) (j : ℕ) : Except String (Option ℝ) :=
  average a (fun fs => blockFt a.win a.mlag a.npad
    (blockAcf a.bsize a.na a.dt (blockData a.bsize a.dt a.der fs)) j) frames

/-- /repo/ipi/utils/tools/acf_xyz.py L80: `time[t]`. -/
noncomputable def time (a : Args) (t : ℕ) : ℝ := t * a.dt

/-- /repo/ipi/utils/tools/acf_xyz.py L81-85: `omega[j]`. -/
noncomputable def omega (a : Args) (j : ℕ) : ℝ :=
  j / (2 * (a.mlag + a.npad) : ℕ) * (2 * π / a.dt)

/-- /repo/tools/py/getacf.py L122: the number of lags that are written by the command line,
`np.c_[time, vvacf, vvacf_err][: mlag + npad]`. -/
def rowsAcf (a : Args) : ℕ := min (a.mlag + 1) (a.mlag + a.npad)

/-- /repo/tools/py/getacf.py L123: the number of frequencies that are written. -/
def rowsFt (a : Args) : ℕ := min (2 * (a.mlag + a.npad)) (a.mlag + a.npad)

/-- /repo/ipi/utils/io/__init__.py `read_file_raw` and /repo/ipi/utils/tools/acf_xyz.py L113: the
numbers of the file go into the array as they are; `unit` is the value of the unit named in the
comment line of the file in atomic units. -/
def asRead (_unit : ℝ) (x : ℝ) : ℝ := x

end Verif.Acf
