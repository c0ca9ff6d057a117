import Verif.Phys.EstimSC

/-!
# More of the quantities of `ipi/engine/properties.py`

As in `Verif.Phys.Estim` and `Verif.Phys.EstimSC`.
-/

namespace Verif.Estim

open Finset

section
variable {n N : ℕ}

/-- ipi/engine/properties.py L1251-L1302 `get_sckinop` -/
noncomputable def sckinop (kB T : ℝ) (names : Fin N → String) (s : Sel) (q f : Conf n N) : Except Err ℝ := do
  s.check N
  return ∑ a ∈ s.atoms names, ((∑ b : Fin (n + 1), if (b : ℕ) % 2 = 0 then ∑ d, (q (b, a, d) - qc q a d) * f (b, a, d) else 0)
    * (-0.5 / ((n + 1 : ℕ) : ℝ) * 2) + 1.5 * kB * T)

/-- The energy of the springs of the ring polymer, ipi/engine/normalmodes.py `get_vspring`, written with the beads: half the
mass times the squared frequency of the springs times their squared lengths (closed paths of distinguishable particles). -/
noncomputable def vspring (omegan2 : ℝ) (m : Fin N → ℝ) (q : Conf n N) : ℝ := ∑ a, 0.5 * m a * omegan2 * springs q a

/-- ipi/engine/properties.py L1499-L1521 `get_sckinpr` -/
noncomputable def sckinpr (kB T omegan2 : ℝ) (m : Fin N → ℝ) (q : Conf n N) (pots pssc : Fin (n + 1) → ℝ) : ℝ :=
  1.5 * kB * T * ((n + 1 : ℕ) : ℝ) * (N : ℝ) - vspring omegan2 m q / ((n + 1 : ℕ) : ℝ)
    + (∑ b : Fin (n + 1), if (b : ℕ) % 2 = 0 then pssc b + pots b / 3 else pssc b - pots b / 3) / ((n + 1 : ℕ) : ℝ)

/-- ipi/engine/properties.py L2849-L2896 `get_ti_term` -/
noncomputable def tiTerm (omegan2 : ℝ) (m : Fin N → ℝ) (names : Fin N → String) (s : Sel) (f : Conf n N) : Except Err ℝ := do
  s.check N
  return (∑ a ∈ s.atoms names, ∑ d, ∑ b, f (b, a, d) ^ 2 / m a) * (1 / 24 / omegan2 / ((n + 1 : ℕ) : ℝ))

/-- ipi/engine/properties.py L3178-L3198 `Trajectories.get_akcv_od` -/
noncomputable def akcvOd (q f : Conf n N) (a : Fin N) (c : Fin 3) : ℝ :=
  let i : Fin 3 := ![0, 0, 1] c
  let j : Fin 3 := ![1, 2, 2] c
  (∑ b, ((q (b, a, i) - qc q a i) * f (b, a, j) + (q (b, a, j) - qc q a j) * f (b, a, i))) * 0.5 * (-0.5 / ((n + 1 : ℕ) : ℝ))

/-- ipi/engine/properties.py L3200-L3216 `Trajectories.get_rg` -/
noncomputable def trajRg (q : Conf n N) (a : Fin N) (d : Fin 3) : ℝ :=
  √((∑ b, (q (b, a, d) - qc q a d) * (q (b, a, d) - qc q a d)) / ((n + 1 : ℕ) : ℝ))

/-- ipi/engine/properties.py L1751-L1767 `get_vcom`.  The arguments of a property are strings (`getall`), and the
comparison of a string with zero (L1754) raises: `.error`.  `none` stands for a division of zero by zero, which numpy makes
"not a number". -/
noncomputable def vcom (m : Fin N → ℝ) (names : Fin N → String) (latom : String) (bead : Option String) (pc : Fin N → Fin 3 → ℝ) :
    Except Unit (Option (Fin 3 → ℝ)) :=
  let A : Finset (Fin N) := univ.filter fun a => latom = "" ∨ latom = names a
  match bead with
  | some _ => .error ()
  | none => .ok (if A = ∅ then none else some fun d => (∑ a ∈ A, pc a d) / ∑ a ∈ A, m a)

/-- ipi/engine/properties.py L1304-L1320 `get_fqvirial`: the reference is kept from the first call on.  The file given is
represented by its content `ref`. -/
noncomputable def fqvirial (ref : Option (Fin N → Fin 3 → ℝ)) (q f : Conf n N) (kept : Option (Fin N → Fin 3 → ℝ)) :
    ℝ × Option (Fin N → Fin 3 → ℝ) :=
  let r := kept.getD (ref.getD fun _ _ => 0)
  ((∑ b, ∑ a, ∑ d, f (b, a, d) * (q (b, a, d) - r a d)) * 0.5 / ((n + 1 : ℕ) : ℝ), some r)

end

end Verif.Estim
