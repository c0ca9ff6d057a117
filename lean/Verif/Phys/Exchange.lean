import Mathlib.Analysis.SpecialFunctions.Log.Basic
import Mathlib.Algebra.BigOperators.Fin

/-!
# Bosonic exchange

Model of `ExchangePotential` (`/repo/ipi/utils/exchange.py`), with exact real numbers.
Positions are functions `q j l c` of the bead `j`, the particle `l` and the direction `c`;
there are `P` beads and `N` particles, all counted from zero.
-/

namespace Verif.Exchange

open Finset

/-- Positions of the beads of the bosons, `qbosons` (L66-74). -/
abbrev Pos := ℕ → ℕ → Fin 3 → ℝ

/-- `bead_diff_intra[j][l]` (L77-82). -/
def diffIntra (q : Pos) (j l : ℕ) (c : Fin 3) : ℝ := q (j + 1) l c - q j l c

/-- `bead_diff_inter_first_last_bead[l][m]` (L85-93): first bead of `l` minus last bead of
`m`. -/
def diffInter (P : ℕ) (q : Pos) (l m : ℕ) (c : Fin 3) : ℝ := q 0 l c - q (P - 1) m c

/-- `intra_spring_energies[l]` (L171): the sum over the `P - 1` links inside the particle. -/
def intra (P : ℕ) (q : Pos) (l : ℕ) : ℝ := ∑ j ∈ range (P - 1), ∑ c, diffIntra q j l c ^ 2

/-- `spring_energy_first_last_bead_array[l, m]` (L172-174). -/
def inter (P : ℕ) (q : Pos) (l m : ℕ) : ℝ := ∑ c, diffInter P q l m c ^ 2

/-- `get_cycle_energies` (L163-202): the entry `[s, s + k]` of the matrix, by the recurrence
that goes up from the diagonal; `pre` is `0.5 * boson_m * omegan2`. -/
def cycleFrom (P : ℕ) (q : Pos) (pre : ℝ) : ℕ → ℕ → ℝ
  | 0, s => pre * (intra P q s + inter P q s s)
  | k + 1, s =>
      let m := s + (k + 1)
      cycleFrom P q pre k (s + 1)
        + pre * (- inter P q (s + 1) m + intra P q s + inter P q (s + 1) s + inter P q s m)

/-- The entry `[u, v]` of `cycle_energies`; entries below the diagonal stay zero. -/
def cycleE (P : ℕ) (q : Pos) (pre : ℝ) (u v : ℕ) : ℝ :=
  if u ≤ v then cycleFrom P q pre (v - u) u else 0

/-- `np.min` of a list that is not empty. -/
noncomputable def minList : List ℝ → ℝ
  | [] => 0
  | x :: xs => xs.foldl min x

/-- One pass of the loop of `get_prefix_V` (L213-228): `V` holds the entries below `m`. -/
noncomputable def prefixNext (β : ℝ) (E : ℕ → ℕ → ℝ) (V : List ℝ) (m : ℕ) : ℝ :=
  let sub := V.zipIdx.map (fun (v, u) => v + E u (m - 1))
  let elong := minList sub
  let sig := (sub.map (fun s => Real.exp (-β * (s - elong)))).sum
  elong - Real.log (sig / m) / β

/-- The entries `V[0 … m]` after `m` passes of the loop of `get_prefix_V` (L211-230). -/
noncomputable def prefixV (β : ℝ) (E : ℕ → ℕ → ℝ) : ℕ → List ℝ
  | 0 => [0]
  | m + 1 => prefixV β E m ++ [prefixNext β E (prefixV β E m) (m + 1)]

/-- One pass of the loop of `get_suffix_V` (L241-258): `RV` holds the entries above `l`. -/
noncomputable def suffixNext (β : ℝ) (E : ℕ → ℕ → ℝ) (RV : List ℝ) (l : ℕ) : ℝ :=
  let sub := RV.zipIdx.map (fun (v, i) => E l (l + i) + v)
  let elong := minList sub
  let sig := (sub.zipIdx.map (fun (s, i) =>
    ((l + i + 1 : ℕ) : ℝ)⁻¹ * Real.exp (-β * (s - elong)))).sum
  elong - Real.log sig / β

/-- The entries `RV[N - k … N]` after `k` passes of the loop of `get_suffix_V` (L232-258). -/
noncomputable def suffixV (β : ℝ) (E : ℕ → ℕ → ℝ) (N : ℕ) : ℕ → List ℝ
  | 0 => [0]
  | k + 1 => suffixNext β E (suffixV β E N k) (N - (k + 1)) :: suffixV β E N k

/-- Entry `m` of the array returned by `get_prefix_V`. -/
noncomputable def V (β : ℝ) (E : ℕ → ℕ → ℝ) (N m : ℕ) : ℝ := (prefixV β E N).getD m 0

/-- Entry `l` of the array returned by `get_suffix_V`: the loop stops at one, the entry zero is
taken from the prefix array (L260-261). -/
noncomputable def RV (β : ℝ) (E : ℕ → ℕ → ℝ) (N l : ℕ) : ℝ :=
  if l = 0 then V β E N N else (suffixV β E N (N - 1)).getD (l - 1) 0

/-- `connection_probs[l][u]` (L291-334): the entries on and below the diagonal, the entries just
above it, and zero elsewhere. -/
noncomputable def prob (β : ℝ) (E : ℕ → ℕ → ℝ) (N l u : ℕ) : ℝ :=
  if u ≤ l then
    ((l + 1 : ℕ) : ℝ)⁻¹ * Real.exp (-β * (V β E N u + E u l + RV β E N (l + 1) - V β E N N))
  else if u = l + 1 then
    1 - Real.exp (-β * (V β E N (l + 1) + RV β E N (l + 1) - V β E N N))
  else 0

/-- The force on the bead `j` of the particle `l` (L272-381); `pref` is
`-1 * boson_m * omegan2`.  With one bead the python raises an exception (there is no
`bead_diff_intra[-1]`), hence at least two beads.  The three assignments: inner beads,
last bead, first bead. -/
noncomputable def force (P N : ℕ) (q : Pos) (pref : ℝ) (p : ℕ → ℕ → ℝ) (j l : ℕ) (c : Fin 3) : ℝ :=
  if j = 0 then
    ∑ k ∈ range N, pref * (diffInter P q l k c - diffIntra q 0 l c) * p k l
  else if j = P - 1 then
    ∑ k ∈ range N, pref * (- diffInter P q k l c + diffIntra q (P - 2) l c) * p l k
  else pref * (- diffIntra q j l c + diffIntra q (j - 1) l c)

/-- `get_vspring_and_fspring` (L266-383): with one bead `bead_diff_intra` is empty and
`bead_diff_intra[-1]` (L352) raises `IndexError`; otherwise the potential and the forces. -/
noncomputable def springs (P N : ℕ) (q : Pos) (β mω2 : ℝ) :
    Except String (ℝ × (ℕ → ℕ → Fin 3 → ℝ)) :=
  let E := cycleE P q (0.5 * mω2)
  if P ≤ 1 then .error "IndexError"
  else .ok (V β E N N, force P N q (-1 * mω2) (prob β E N))

/-- `get_distinct_probability` (L385-399). -/
noncomputable def distinctProb (β : ℝ) (E : ℕ → ℕ → ℝ) (N : ℕ) : ℝ :=
  Real.exp (-β * ((∑ l ∈ range N, E l l) - V β E N N) - Real.log (N.factorial : ℝ))

/-- `get_longest_probability` (L401-410). -/
noncomputable def longestProb (β : ℝ) (E : ℕ → ℕ → ℝ) (N : ℕ) : ℝ :=
  Real.exp (-β * (E 0 (N - 1) - V β E N N))

/-- One pass of the loop of `get_kinetic_td` (L422-441); the loop over `k` from `m` to one runs
over the index `u = m - k` from zero. -/
noncomputable def estNext (β : ℝ) (E : ℕ → ℕ → ℝ) (Vs : ℕ → ℝ) (est : List ℝ) (m : ℕ) : ℝ :=
  let et := minList ((List.range m).map (fun u => E u (m - 1) + Vs u))
  let sig := (est.zipIdx.map (fun (e, u) =>
    (e - E u (m - 1)) * Real.exp (-β * (E u (m - 1) + Vs u - et)))).sum
  sig / (m * Real.exp (-β * (Vs m - et)))

/-- The entries `est[0 … m]` of `get_kinetic_td`. -/
noncomputable def estV (β : ℝ) (E : ℕ → ℕ → ℝ) (Vs : ℕ → ℝ) : ℕ → List ℝ
  | 0 => [0]
  | m + 1 => estV β E Vs m ++ [estNext β E Vs (estV β E Vs m) (m + 1)]

/-- `get_kinetic_td` (L412-445). -/
noncomputable def kineticTd (β : ℝ) (E : ℕ → ℕ → ℝ) (N P : ℕ) : ℝ :=
  1.5 * N / β + (estV β E (V β E N) N).getD N 0 / P

/-- One pass of the loop of `_get_fermionic_potential_exp` (L467-473). -/
noncomputable def fermiNext (β : ℝ) (E : ℕ → ℕ → ℝ) (W : List ℝ) (m : ℕ) : ℝ :=
  1 / (m : ℝ) * (W.zipIdx.map (fun (w, u) =>
    (-1) ^ (m - u - 1) * w * Real.exp (-β * E u (m - 1)))).sum

/-- The entries `W[0 … m]` of `_get_fermionic_potential_exp` (L456-475). -/
noncomputable def fermiW (β : ℝ) (E : ℕ → ℕ → ℝ) : ℕ → List ℝ
  | 0 => [1]
  | m + 1 => fermiW β E m ++ [fermiNext β E (fermiW β E m) (m + 1)]

/-- `get_fermionic_sign` (L447-454). -/
noncomputable def fermiSign (β : ℝ) (E : ℕ → ℕ → ℝ) (N : ℕ) : ℝ :=
  (fermiW β E N).getD N 0 / Real.exp (-β * V β E N N)

end Verif.Exchange
