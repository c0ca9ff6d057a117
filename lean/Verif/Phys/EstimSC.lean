import Verif.Phys.Estim
import Verif.Phys.SuzukiChin

/-!
# Suzuki-Chin estimators of `ipi/engine/properties.py`

As in `Verif.Phys.Estim`, with the values of the forces object as arguments.
-/

namespace Verif.Estim

open Finset

section
variable {n N : ℕ}

/-- ipi/engine/forces.py L1573-L1584 `get_potssc`, from the potentials and forces of the replicas (for
an even number of replicas). -/
noncomputable def potssc (alpha omegan2 : ℝ) (m : Fin N → ℝ) (pots : Fin (n + 1) → ℝ) (f : Conf n N)
    (b : Fin (n + 1)) : ℝ :=
  SC.coeff1 b * pots b
    + SC.coeff2 alpha omegan2 b * ∑ a, ∑ d, f (b, a, d) / m a * f (b, a, d)

/-- ipi/engine/properties.py L1238-L1249 `get_scpottd` -/
noncomputable def scpottd (pots pssc : Fin (n + 1) → ℝ) : ℝ :=
  (∑ b : Fin (n + 1), if (b : ℕ) % 2 = 0 then 2 * pots b / 3 + 2 * (pssc b + pots b / 3)
    else 4 * pots b / 3 + 2 * (pssc b - pots b / 3)) / ((n + 1 : ℕ) : ℝ)

/-- ipi/engine/properties.py L1322-L1394 `get_sckintd` -/
noncomputable def sckintd (kB T alpha omegan2 : ℝ) (m : Fin N → ℝ) (names : Fin N → String) (s : Sel)
    (q f fsc : Conf n N) : Except Err ℝ := do
  s.check N
  return ∑ a ∈ s.atoms names, ((∑ b : Fin (n + 1),
      ((∑ d, (q (b, a, d) - qc q a d) * (f (b, a, d) + fsc (b, a, d)))
        - 2 * (if (b : ℕ) % 2 = 0 then alpha / omegan2 / 9 else (1 - alpha) / omegan2 / 9)
          * ∑ d, f (b, a, d) * f (b, a, d) / m a)) * (-0.5 / ((n + 1 : ℕ) : ℝ))
    + 1.5 * kB * T)

/-- ipi/engine/properties.py L2131-L2206 `get_scyama_estimators` within `k` rounds: as
`get_yama_estimators` with `potsc` added to the potential; `dforces` is given the same `omegan2` and
`alpha` (L2154-L2155) and the same forcefields. -/
noncomputable def scyama (c : Fd) (kB T alpha omegan2 : ℝ) (m : Fin N → ℝ)
    (pots : Conf n N → Fin (n + 1) → ℝ) (f : Conf n N → Conf n N) (q : Conf n N) (fd : ℝ) (k : ℕ) :
    Option (ℝ × ℝ) :=
  let V : Conf n N → ℝ := fun q => ∑ b, pots q b + ∑ b, potssc alpha omegan2 m (pots q) (f q) b
  yama c kB T V V q fd k

end

end Verif.Estim
