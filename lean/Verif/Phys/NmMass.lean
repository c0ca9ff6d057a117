import Verif.Phys.Propagator
import Verif.Phys.NormalModes

/-!
# Dynamical masses of the normal modes

Model of the choice of the mass factors in `/repo/ipi/engine/normalmodes.py`, with exact real
numbers.
-/

namespace Verif.NmMass

open Real

/-- The attribute `style` of `frequencies` (`/repo/ipi/inputs/normalmodes.py` L22-39). -/
inductive Style where
  | rpmd
  | manual
  | paCmd
  | wmaxCmd
  deriving DecidableEq, Repr

/-- `get_omegak` (L443-451): the frequencies of the free ring polymer; `ωn` is `omegan`. -/
noncomputable def omegak (ωn : ℝ) (n k : ℕ) : ℝ := ωn * Nm.nmEva n k

/-- `get_o_omegak` (L453-461): those of the open path. -/
noncomputable def oOmegak (ωn : ℝ) (n k : ℕ) : ℝ := ωn * Nm.oNmEva n k

/-- `get_omegan` (L429-436); `kb` and `ħ` are one in atomic units (the constants are kept). -/
noncomputable def omegan (temp kb hbar : ℝ) (n : ℕ) : ℝ := temp * n * kb / hbar

/-- `get_nmm` (L584-647) and `get_o_nmm` (L650-714), which differ only in the frequencies `ω` they
read.  The warnings and messages are left out.  The factors outside `range(1, nbeads)` stay one. -/
noncomputable def nmm (n : ℕ) (style : Style) (freqs : List ℝ) (ω : ℕ → ℝ) :
    Except String (ℕ → ℝ) :=
  match style with
  | .rpmd => .ok fun _ => 1
  | .manual =>
      if freqs.length ≠ n - 1 then .error "Manual path mode requires (nbeads-1) frequencies"
      else .ok fun b =>
        if 1 ≤ b ∧ b < n then
          let sk := ω b / freqs.getD (b - 1) 0
          sk ^ 2
        else 1
  | .paCmd =>
      if freqs.length = 0 then .error "PA-CMD mode requires the target frequency"
      else .ok fun b =>
        if 1 ≤ b ∧ b < n then
          let sk := ω b / freqs.getD 0 0
          sk ^ 2
        else 1
  | .wmaxCmd =>
      if freqs.length < 2 then .error "WMAX-CMD mode requires [wmax, wtarget]"
      else
        let wmax := freqs.getD 0 0
        let wt := freqs.getD 1 0
        .ok fun b =>
          if 1 ≤ b ∧ b < n then
            let sk := 1 / √(wt ^ 2 * (1 + (wmax / ω 1) ^ 2) / (wmax ^ 2 + ω b ^ 2))
            sk ^ 2
          else 1

/-- `get_dynm3` (L717-729) for one mode and coordinate. -/
def dynm (m : ℝ) (fac : ℕ → ℝ) (b : ℕ) : ℝ := m * fac b

/-- `get_dynwk` (L463-471), the frequencies handed out as `dynomegak`. -/
noncomputable def dynwk (ω fac : ℕ → ℝ) (b : ℕ) : ℝ := ω b / √(fac b)

end Verif.NmMass
