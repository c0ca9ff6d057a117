import Verif.Phys.NormalModes

/-!
# Instantons

Model of the mappers of an instanton calculation (`/repo/ipi/engine/motion/instanton.py`: `PesMapper` L269-414, `FrictionMapper` L417-687,
`SpringMapper` L690-867) and of the construction of its Hessian (`/repo/ipi/utils/instools.py`: `banded_hessian` L10-98, `red2comp` L156-171;
`/repo/ipi/utils/hesstools.py`: `get_hessian` L178-301), with exact real numbers.  The coordinates of a bead are numbered by `c < D`, the beads by `i < n`;
`coef` are the `n + 1` coefficients of the discretisation.
-/

namespace Verif.Instanton

open Finset

/-! ## Springs -/

section Springs

variable {m : ℕ} {δ : Type} [Fintype δ]

/-- `gq_k = np.dot(self.C, self.dbeads.q)` with `C = _b2o_nm` (L768). -/
noncomputable def modes (q : Fin (m + 1) → δ → ℝ) (k : Fin (m + 1)) (c : δ) : ℝ := Nm.apply (Nm.mkONm (m + 1)) (fun j => q j c) k

/-- `omegak`: `rp_factor * nm.get_o_omegak()`, where `ω` is `omegan = rp_factor * nm.omegan` (L711-712). -/
noncomputable def omegak (ω : ℝ) (m : ℕ) (k : Fin (m + 1)) : ℝ := ω * Nm.oNmEva (m + 1) k

/-- The energy of the springs (L769-772). -/
noncomputable def springE (ω : ℝ) (μ : δ → ℝ) (q : Fin (m + 1) → δ → ℝ) : ℝ :=
  1 / 2 * ∑ k, ∑ c, omegak ω m k ^ 2 * (μ c * modes q k c ^ 2)

/-- The gradient of the springs (L774-776).  The coefficients of the discretisation, chosen in L740-745, are only used in a branch `if False` (L779-803). -/
noncomputable def springG (ω : ℝ) (μ : δ → ℝ) (q : Fin (m + 1) → δ → ℝ) (i : Fin (m + 1)) (c : δ) : ℝ :=
  μ c * ∑ k, Nm.mkONm (m + 1) k i * (modes q k c * omegak ω m k ^ 2)

end Springs

/-- The dependence of `spring_hessian` (L810-867, mode `half`) on the beads; the block of the beads `i`, `j` is this number times `diag(m3 * omega2)`. -/
noncomputable def lap (n : ℕ) (coef : ℕ → ℝ) (i j : ℕ) : ℝ :=
  if n = 1 then 0
  else
    (if i = j then (if i = 0 then 1 / coef 1 else 0) + (if i = n - 1 then 1 / coef (n - 1) else 0)
      + (if 1 ≤ i ∧ i < n - 1 then 1 / coef i + 1 / coef (i + 1) else 0) else 0)
    + (if j = i + 1 then -(1 / coef (i + 1)) else 0) + (if i = j + 1 then -(1 / coef (j + 1)) else 0)

/-- `spring_hessian`: the entry for the coordinate `c` of bead `i` and the coordinate `d` of bead `j`. -/
noncomputable def springH (n : ℕ) (ω2 : ℝ) (μ coef : ℕ → ℝ) (i c j d : ℕ) : ℝ := if c = d then μ c * ω2 * lap n coef i j else 0

/-! ## Physical part -/

/-- `(self.coef[1:] + self.coef[:-1]) / 2`. -/
noncomputable def scale (coef : ℕ → ℝ) (i : ℕ) : ℝ := (coef i + coef (i + 1)) / 2

/-- `PesMapper.evaluate` (L403-414): the gradient for bead `i`, from the gradient `g` of the potential. -/
noncomputable def physG (coef : ℕ → ℝ) (g : ℝ → ℝ) (i : ℕ) (x : ℝ) : ℝ := g x * scale coef i

/-- One entry of `get_hessian` (hesstools.py L243-272): the argument `new_disc` is not used by the mapper, which scales the gradient. -/
noncomputable def hessEntry (coef : ℕ → ℝ) (g : ℝ → ℝ) (i : ℕ) (d x : ℝ) : ℝ := (physG coef g i (x + d) - physG coef g i (x - d)) / (2 * d)

/-- `red2comp` (L156-171): the physical part of the Hessian between the coordinates of bead `i` and bead `j`, from the reduced one `h row bead column`. -/
noncomputable def physH (coef : ℕ → ℝ) (h : ℕ → ℕ → ℕ → ℝ) (i c j d : ℕ) : ℝ := if i = j then h c j d * (coef j + coef (j + 1)) / 2 else 0

/-! ## Band storage -/

/-- The diagonal of the springs in `banded_hessian` (L76-87) at bead `i`. -/
noncomputable def bandDiag (n : ℕ) (coef : ℕ → ℝ) (i : ℕ) : ℝ :=
  if i = 0 then 1 / coef 1 else if i = n - 1 then 1 / coef (n - 1) else 1 / coef i + 1 / coef (i + 1)

/-- `banded_hessian` (L58-98): row `r ≤ D`, column of bead `j` and coordinate `d`; `ω2` and `μ` give `d_corner`. -/
noncomputable def band (n D : ℕ) (ω2 : ℝ) (μ coef : ℕ → ℝ) (h : ℕ → ℕ → ℕ → ℝ) (shift : ℝ) (r j d : ℕ) : ℝ :=
  let phys := if 1 ≤ r ∧ D - r ≤ d then h (d - (D - r)) j d * (coef j + coef (j + 1)) / 2 else 0
  if 1 < n then
    if r = 0 then (if j = 0 then 0 else -(μ d * ω2) * (1 / coef j))
    else if r = D then phys + μ d * ω2 * bandDiag n coef j + shift else phys
  else if r = D then phys + shift else phys

/-- The number of pieces of `diag_sp` (L76-86): one for the first bead, one and the loop `range(2, nbeads - 1)` for those in the middle, one for the last. -/
def diagPieces (n : ℕ) : ℕ := 1 + (1 + (n - 1 - 2)) + 1

/-- `hnew[-1, :] += diag_sp` (L87) raises an exception if the lengths differ. -/
def bandRaises (n : ℕ) : Bool := decide (1 < n) && (diagPieces n != n)

/-- `sym_band` (L101-110): `newA[u + i, col] = A[u - i, col + i]`, rows up to `u` copied. -/
def symBand (u : ℕ) (A : ℕ → ℕ → ℝ) (r col : ℕ) : ℝ := if r ≤ u then A r col else A (u - (r - u)) (col + (r - u))

/-! ## Friction, one coordinate per bead -/

section Friction

variable {m : ℕ}

/-- `obtain_g` (L559-587) for a friction that does not depend on the position: the integral from the first bead, `s` being the root of the friction. -/
def fricPath (s : ℝ) (q : Fin (m + 1) → ℝ) (i : Fin (m + 1)) : ℝ := s * (q i - q 0)

/-- The energy `e` of `compute_friction_terms` (L609-611), `lt` being `fric_LTwk`. -/
noncomputable def fricE (lt : Fin (m + 1) → ℝ) (s : ℝ) (q : Fin (m + 1) → ℝ) : ℝ :=
  1 / 2 * ∑ k, lt k * Nm.apply (Nm.mkONm (m + 1)) (fricPath s q) k ^ 2

/-- The gradient `g` of `compute_friction_terms` (L613-616). -/
noncomputable def fricG (lt : Fin (m + 1) → ℝ) (s : ℝ) (q : Fin (m + 1) → ℝ) (i : Fin (m + 1)) : ℝ :=
  s * ∑ k, Nm.mkONm (m + 1) k i * (lt k * Nm.apply (Nm.mkONm (m + 1)) (fricPath s q) k)

/-- The energy of all beads from `FrictionMapper.evaluate` (L671-687), for the default discretisation: the number `e_friction` is added to the array of the
energies of the beads, whose sum is taken by `Mapper` (L936-939). -/
noncomputable def mapperE (V : ℝ → ℝ) (lt : Fin (m + 1) → ℝ) (s : ℝ) (q : Fin (m + 1) → ℝ) : ℝ := ∑ i, (V (q i) + fricE lt s q)

/-- The gradient from `FrictionMapper.evaluate`, from the gradient `g` of the potential. -/
noncomputable def mapperG (g : ℝ → ℝ) (lt : Fin (m + 1) → ℝ) (s : ℝ) (q : Fin (m + 1) → ℝ) (i : Fin (m + 1)) : ℝ := g (q i) + fricG lt s q i

/-- `get_fric_rp_hessian` (L509-557): the blocks of the diagonal from the derivatives of the friction, then the assignments of all the blocks. -/
def fricHessian (beads : List ℕ) (diag : ℕ → ℝ) (cross : ℕ → ℕ → ℝ) : ℕ × ℕ → ℝ :=
  let h0 : ℕ × ℕ → ℝ := beads.foldl (fun h n => Function.update h (n, n) (diag n)) (fun _ => 0)
  (beads.flatMap fun nl => beads.map fun ne => (nl, ne)).foldl (fun h b => Function.update h b (cross b.1 b.2)) h0

end Friction

end Verif.Instanton
