import Verif.Phys.Estim

/-!
# The printed stress, virial and pressure

Sources: `ipi/engine/properties.py` 636-755 (the table of properties), 1035-1049 (`tensor2vec`), 1883-1939 (`kstress_sctd`,
`kstress_cv`), `ipi/engine/normalmodes.py` 945-960 (`get_kstress`), `ipi/engine/forces.py` 229-240 (`ForceBead.get_vir`) and
1189-1202 (`Forces.get_vir`).  Numbers are real numbers.
-/

namespace Verif.Estim

open Finset

variable {n N : ℕ}

/-- The virials of all beads. -/
abbrev Virs (n : ℕ) := Fin (n + 1) → Fin 3 → Fin 3 → ℝ

/-- `ForceBead.get_vir` (`forces.py` 229-240): the entries below the diagonal are set to zero. -/
def upper (v : Fin 3 → Fin 3 → ℝ) (i j : Fin 3) : ℝ := if j < i then 0 else v i j

/-- `Forces.get_vir` (`forces.py` 1189-1202): the sum over the beads. -/
def vir (v : Virs n) (i j : Fin 3) : ℝ := ∑ b, upper (v b) i j

/-- `get_kstress` (`normalmodes.py` 945-960): `pnm` are the momenta of the normal modes, `factor` is `nm_factor`. -/
noncomputable def kstressMd (m : Fin N → ℝ) (factor : Fin (n + 1) → ℝ) (pnm : Conf n N) (i j : Fin 3) : ℝ :=
  ∑ k, ∑ a, (pnm (k, a, i) / √(factor k) / √(m a)) * (pnm (k, a, j) / √(factor k) / √(m a))

/-- `tensor2vec` (`properties.py` 1035-1049). -/
def tensor2vec (t : Fin 3 → Fin 3 → ℝ) (c : Fin 6) : ℝ := t (voigt c).1 (voigt c).2

/-- The trace. -/
def tr (t : Fin 3 → Fin 3 → ℝ) : ℝ := ∑ i, t i i

/-- `stress_md` (`properties.py` 636-647). -/
noncomputable def stressMd (V : ℝ) (m : Fin N → ℝ) (factor : Fin (n + 1) → ℝ) (v : Virs n) (pnm : Conf n N) : Fin 6 → ℝ :=
  tensor2vec fun i j => (vir v i j + kstressMd m factor pnm i j) / V

/-- `pressure_md` (`properties.py` 648-656). -/
noncomputable def pressureMd (V : ℝ) (m : Fin N → ℝ) (factor : Fin (n + 1) → ℝ) (v : Virs n) (pnm : Conf n N) : ℝ :=
  tr fun i j => (vir v i j + kstressMd m factor pnm i j) / (3 * V)

/-- `stress_cv` (`properties.py` 682-692). -/
noncomputable def stressCv (V : ℝ) (m : Fin N → ℝ) (v : Virs n) (q f : Conf n N) (pc : Fin N × Fin 3 → ℝ) (c : Fin 6) : ℝ :=
  tensor2vec (fun i j => vir v i j + kstressCv m q f pc i j) c / (V * ((n + 1 : ℕ) : ℝ))

/-- `pressure_cv` (`properties.py` 719-726), and `pressure_tdsc` (693-702) with the virials and forces of the Suzuki-Chin
potentials: `kstress_sctd` (1883-1910) is `kstress_cv` with these forces. -/
noncomputable def pressureCv (V : ℝ) (m : Fin N → ℝ) (v : Virs n) (q f : Conf n N) (pc : Fin N × Fin 3 → ℝ) : ℝ :=
  tr (fun i j => vir v i j + kstressCv m q f pc i j) / (3 * V * ((n + 1 : ℕ) : ℝ))

/-- `pressure_tdsc` (`properties.py` 693-702). -/
noncomputable def pressureTdsc (V : ℝ) (m : Fin N → ℝ) (v vsc : Virs n) (q f fsc : Conf n N) (pc : Fin N × Fin 3 → ℝ) : ℝ :=
  tr (fun i j => vir v i j + vir vsc i j + kstressCv m q (fun x => f x + fsc x) pc i j) / (3 * V * ((n + 1 : ℕ) : ℝ))

/-- `virial_cv` and `kstress_cv` (`properties.py` 727-755). -/
noncomputable def virialCv (V : ℝ) (v : Virs n) : Fin 6 → ℝ := tensor2vec fun i j => vir v i j / (V * ((n + 1 : ℕ) : ℝ))

/-- `kstress_cv` as it is printed (`properties.py` 727-738). -/
noncomputable def kstressCvOut (V : ℝ) (m : Fin N → ℝ) (q f : Conf n N) (pc : Fin N × Fin 3 → ℝ) : Fin 6 → ℝ :=
  tensor2vec fun i j => kstressCv m q f pc i j / (V * ((n + 1 : ℕ) : ℝ))

end Verif.Estim
