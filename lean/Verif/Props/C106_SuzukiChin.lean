import Verif.Phys.EstimSC
import Verif.Props.C106_Derivatives

/-!
# C106: Suzuki-Chin energies

The potential and kinetic energies of `get_scpottd` and `get_sckintd` average to the derivatives of
the logarithm of the Suzuki-Chin partition function.
-/

namespace Verif.Estim

open Finset MeasureTheory Topology

section
variable {n N : ℕ} {kB hbar T alpha : ℝ} {m : Fin N → ℝ} {pots : Conf n N → Fin (n + 1) → ℝ}
  {f fsc : Conf n N → Conf n N}

/-- Specification: the Suzuki-Chin potential at temperature `t`, when the physical potential is
multiplied by `lam`, from the potentials and the forces of the replicas. -/
noncomputable def scU (kB hbar alpha : ℝ) (m : Fin N → ℝ) (pots : Conf n N → Fin (n + 1) → ℝ)
    (f : Conf n N → Conf n N) (lam t : ℝ) (q : Conf n N) : ℝ :=
  ∑ b : Fin (n + 1), ((if (b : ℕ) % 2 = 0 then 2 / 3 else 4 / 3) * (lam * pots q b)
    + (if (b : ℕ) % 2 = 0 then alpha else 1 - alpha) / (9 * (((n + 1 : ℕ) : ℝ) * kB * t / hbar) ^ 2)
      * ∑ a, ∑ d, (lam * f q (b, a, d)) ^ 2 / m a)

/-- The part linear in the potential. -/
noncomputable def scV (pots : Conf n N → Fin (n + 1) → ℝ) (q : Conf n N) : ℝ :=
  ∑ b : Fin (n + 1), (if (b : ℕ) % 2 = 0 then 2 / 3 else 4 / 3) * pots q b

/-- The part with the squares of the forces. -/
noncomputable def scW (omegan2 alpha : ℝ) (m : Fin N → ℝ) (f : Conf n N → Conf n N) (q : Conf n N) : ℝ :=
  ∑ b : Fin (n + 1), SC.coeff2 alpha omegan2 b * ∑ a, ∑ d, f q (b, a, d) ^ 2 / m a

/-- Specification: smooth and confining, with the forces of the Suzuki-Chin potential. -/
structure ScOk (kB hbar T alpha : ℝ) (m : Fin N → ℝ) (pots : Conf n N → Fin (n + 1) → ℝ)
    (f fsc : Conf n N → Conf n N) : Prop where
  hkB : 0 < kB
  hT : 0 < T
  hh : hbar ≠ 0
  hm : ∀ a, 0 < m a
  a0 : 0 ≤ alpha
  a1 : alpha ≤ 1
  hv : Smooth (scV pots)
  hw : Smooth (scW ((((n + 1 : ℕ) : ℝ) * kB * T / hbar) ^ 2) alpha m f)
  conf : ∃ c : ℝ, 0 < c ∧ ∃ D : ℝ, ∀ q, c * ‖q‖ ^ 2 - D ≤ scV pots q
  force : IsForceOf (scU kB hbar alpha m pots f 1 T) (fun q => f q + fsc q)

theorem scU_eq (kB hbar alpha T : ℝ) (m : Fin N → ℝ) (pots : Conf n N → Fin (n + 1) → ℝ)
    (f : Conf n N → Conf n N) (lam mu x : ℝ) (q : Conf n N) :
    scU kB hbar alpha (fun a => mu * m a) pots f lam (T / x) q
      = lam * scV pots q + lam ^ 2 * x ^ 2 / mu * scW ((((n + 1 : ℕ) : ℝ) * kB * T / hbar) ^ 2) alpha m f q := by
  unfold scU scV scW
  rw [Finset.sum_add_distrib, Finset.mul_sum, Finset.mul_sum]
  congr 1
  · exact Finset.sum_congr rfl fun b _ => by ring
  · refine Finset.sum_congr rfl fun b _ => ?_
    have e : ∑ a, ∑ d, (lam * f q (b, a, d)) ^ 2 / (mu * m a)
        = lam ^ 2 / mu * ∑ a, ∑ d, f q (b, a, d) ^ 2 / m a := by
      simp only [Finset.mul_sum]
      refine Finset.sum_congr rfl fun a _ => Finset.sum_congr rfl fun d _ => ?_
      rw [mul_pow, mul_div_mul_comm]
    rw [e]
    generalize ∑ a, ∑ d, f q (b, a, d) ^ 2 / m a = S
    have e2 : (((n + 1 : ℕ) : ℝ) * kB * (T / x) / hbar) ^ 2
        = (((n + 1 : ℕ) : ℝ) * kB * T / hbar) ^ 2 / x ^ 2 := by
      rw [← div_pow]
      congr 1
      ring
    rw [e2]
    generalize (((n + 1 : ℕ) : ℝ) * kB * T / hbar) ^ 2 = o
    unfold SC.coeff2
    have e3 : ∀ y : ℝ, y / (9 * (o / x ^ 2)) = y / o / 9 * x ^ 2 := by
      intro y
      rw [mul_div_assoc', div_div_eq_mul_div, mul_comm 9 o, ← div_div]
      ring
    rw [e3]
    split_ifs <;> ring

theorem scU_one (q : Conf n N) : scU kB hbar alpha m pots f 1 T q
    = scV pots q + scW ((((n + 1 : ℕ) : ℝ) * kB * T / hbar) ^ 2) alpha m f q := by
  have := scU_eq kB hbar alpha T m pots f 1 1 1 q
  simpa using this

theorem scW_nonneg {omegan2 : ℝ} (h : 0 ≤ omegan2) (hm : ∀ a, 0 < m a) (a0 : 0 ≤ alpha) (a1 : alpha ≤ 1)
    (f : Conf n N → Conf n N) (q : Conf n N) : 0 ≤ scW omegan2 alpha m f q := by
  unfold scW SC.coeff2
  refine Finset.sum_nonneg fun b _ => mul_nonneg ?_ (Finset.sum_nonneg fun a _ =>
    Finset.sum_nonneg fun d _ => div_nonneg (sq_nonneg _) (hm a).le)
  split_ifs
  · positivity
  · have : 0 ≤ 1 - alpha := by linarith
    positivity

/-! ### The printed values -/

/-- What `get_scpottd` prints. -/
theorem scpottd_eq {omegan2 : ℝ} (q : Conf n N) :
    scpottd (pots q) (potssc alpha omegan2 m (pots q) (f q))
      = (scV pots q + 2 * scW omegan2 alpha m f q) / ((n + 1 : ℕ) : ℝ) := by
  unfold scpottd scV scW
  congr 1
  rw [Finset.mul_sum, ← Finset.sum_add_distrib]
  refine Finset.sum_congr rfl fun b _ => ?_
  unfold potssc
  have e : ∑ a, ∑ d, f q (b, a, d) / m a * f q (b, a, d) = ∑ a, ∑ d, f q (b, a, d) ^ 2 / m a :=
    Finset.sum_congr rfl fun a _ => Finset.sum_congr rfl fun d _ => by ring
  rw [e]
  unfold SC.coeff1
  split_ifs <;> ring

/-- What `get_sckintd` prints for all atoms. -/
theorem sckintd_eq {omegan2 : ℝ} (hV : Differentiable ℝ (scU kB hbar alpha m pots f 1 T))
    (hf : IsForceOf (scU kB hbar alpha m pots f 1 T) (fun q => f q + fsc q)) (names : Fin N → String)
    (q : Conf n N) :
    sckintd kB T alpha omegan2 m names .all q (f q) (fsc q)
      = .ok (3 / 2 * N * (kB * T) + (1 / 2 * fderiv ℝ (scU kB hbar alpha m pots f 1 T) q (fromC q)
        + scW omegan2 alpha m f q) / ((n + 1 : ℕ) : ℝ)) := by
  have hat : Sel.atoms names .all = univ := by
    ext i
    simp [Sel.atoms, Sel.takes]
  unfold sckintd
  rw [hat, fderiv_force hV hf]
  change Except.ok _ = _
  congr 1
  unfold scW
  simp only [Finset.sum_add_distrib, Finset.sum_sub_distrib, ← Finset.sum_mul, Finset.sum_const,
    Finset.card_univ, Fintype.card_fin, nsmul_eq_mul, Fintype.sum_prod_type, Pi.add_apply, fromC]
  have e1 : ∑ a : Fin N, ∑ b : Fin (n + 1), ∑ d, (q (b, a, d) - qc q a d) * (f q (b, a, d) + fsc q (b, a, d))
      = ∑ b : Fin (n + 1), ∑ a : Fin N, ∑ d, (q (b, a, d) - qc q a d) * (f q (b, a, d) + fsc q (b, a, d)) :=
    Finset.sum_comm
  have e2 : ∑ a : Fin N, ∑ b : Fin (n + 1),
        2 * (if (b : ℕ) % 2 = 0 then alpha / omegan2 / 9 else (1 - alpha) / omegan2 / 9)
          * ∑ d, f q (b, a, d) * f q (b, a, d) / m a
      = 2 * ∑ b : Fin (n + 1), SC.coeff2 alpha omegan2 b * ∑ a, ∑ d, f q (b, a, d) ^ 2 / m a := by
    rw [Finset.sum_comm, Finset.mul_sum]
    refine Finset.sum_congr rfl fun b _ => ?_
    rw [← Finset.mul_sum]
    have : ∑ a, ∑ d, f q (b, a, d) * f q (b, a, d) / m a = ∑ a, ∑ d, f q (b, a, d) ^ 2 / m a :=
      Finset.sum_congr rfl fun a _ => Finset.sum_congr rfl fun d _ => by rw [pow_two]
    rw [this]
    unfold SC.coeff2
    ring
  rw [e1, e2]
  generalize ∑ b : Fin (n + 1), SC.coeff2 alpha omegan2 b * ∑ a, ∑ d, f q (b, a, d) ^ 2 / m a = W
  generalize ∑ b : Fin (n + 1), ∑ a : Fin N, ∑ d, (q (b, a, d) - qc q a d)
    * (f q (b, a, d) + fsc q (b, a, d)) = S
  rw [show (-0.5 : ℝ) = -1 / 2 by norm_num, show (1.5 : ℝ) = 3 / 2 by norm_num]
  ring

/-! ### The averages -/

theorem beads_pos (n : ℕ) : (0 : ℝ) < ((n + 1 : ℕ) : ℝ) := by positivity

theorem one_le_beads (n : ℕ) : (1 : ℝ) ≤ ((n + 1 : ℕ) : ℝ) := by
  push_cast
  linarith [(Nat.cast_nonneg n : (0 : ℝ) ≤ n)]

section
variable (h : ScOk kB hbar T alpha m pots f fsc)
include h

theorem ScOk.w0 (q : Conf n N) : 0 ≤ scW ((((n + 1 : ℕ) : ℝ) * kB * T / hbar) ^ 2) alpha m f q :=
  scW_nonneg (by positivity) h.hm h.a0 h.a1 f q

theorem ScOk.diff : Differentiable ℝ (scU kB hbar alpha m pots f 1 T) := by
  have e : scU kB hbar alpha m pots f 1 T = fun q => scV pots q
      + scW ((((n + 1 : ℕ) : ℝ) * kB * T / hbar) ^ 2) alpha m f q := funext fun q => scU_one q
  rw [e]
  exact (h.hv.diff.differentiable (by norm_num)).add (h.hw.diff.differentiable (by norm_num))

theorem ScOk.grad (q : Conf n N) : fderiv ℝ (scU kB hbar alpha m pots f 1 T) q (fromC q)
    = fderiv ℝ (scV pots) q (fromC q)
      + fderiv ℝ (scW ((((n + 1 : ℕ) : ℝ) * kB * T / hbar) ^ 2) alpha m f) q (fromC q) := by
  have e : scU kB hbar alpha m pots f 1 T = fun q => scV pots q
      + scW ((((n + 1 : ℕ) : ℝ) * kB * T / hbar) ^ 2) alpha m f q := funext fun q => scU_one q
  rw [e, fderiv_fun_add (h.hv.diff.differentiable (by norm_num) q)
    (h.hw.diff.differentiable (by norm_num) q)]
  rfl

/-- The derivatives for factors `p` and `r` of the two parts. -/
theorem ScOk.pair {p p1 p2 r r1 r2 : ℝ → ℝ} {B : ℝ} (hB : 0 ≤ B)
    (hp : ∀ s ∈ Set.Ioo (-1 / 2 : ℝ) (1 / 2), HasDerivAt p (p1 s) s)
    (hp1 : ∀ s ∈ Set.Ioo (-1 / 2 : ℝ) (1 / 2), HasDerivAt p1 (p2 s) s)
    (hr : ∀ s ∈ Set.Ioo (-1 / 2 : ℝ) (1 / 2), HasDerivAt r (r1 s) s)
    (hr1 : ∀ s ∈ Set.Ioo (-1 / 2 : ℝ) (1 / 2), HasDerivAt r1 (r2 s) s)
    (hb : ∀ s ∈ Set.Ioo (-1 / 2 : ℝ) (1 / 2), (|p s| ≤ B ∧ |p1 s| ≤ B ∧ |p2 s| ≤ B)
      ∧ |r s| ≤ B ∧ |r1 s| ≤ B ∧ |r2 s| ≤ B) :
    ∃ h1 h2, Nice (fun s q => p s * along (scV pots) s q
        + r s * along (scW ((((n + 1 : ℕ) : ℝ) * kB * T / hbar) ^ 2) alpha m f) s q) h1 h2 ∧
      ∀ q, h1 0 q = p1 0 * scV pots q + r1 0 * scW ((((n + 1 : ℕ) : ℝ) * kB * T / hbar) ^ 2) alpha m f q
        + 1 / 2 * (p 0 * fderiv ℝ (scV pots) q (fromC q)
          + r 0 * fderiv ℝ (scW ((((n + 1 : ℕ) : ℝ) * kB * T / hbar) ^ 2) alpha m f) q (fromC q)) := by
  have hN := ((smooth_nice h.hv).scale hB hp hp1 fun s hs => (hb s hs).1).add
    ((smooth_nice h.hw).scale hB hr hr1 fun s hs => (hb s hs).2)
  refine ⟨_, _, hN, fun q => ?_⟩
  have h0 : scaled q √(1 + 0) = q := by
    ext x
    simp [scaled]
  unfold along along1
  rw [h0, add_zero, Real.sqrt_one]
  ring

/-- **The Suzuki-Chin energy.**  The sum of the potential energy of `get_scpottd` and of the kinetic
energy of `get_sckintd` averages to `kB T² d ln Z / dT` for the Suzuki-Chin partition function. -/
theorem sc_energy (names : Fin N → String) :
    ∃ K : Conf n N → ℝ, (∀ q, sckintd kB T alpha ((((n + 1 : ℕ) : ℝ) * kB * T / hbar) ^ 2) m names .all q
        (f q) (fsc q) = .ok (K q)) ∧
      HasDerivAt (fun t => Real.log (partition kB hbar m (scU kB hbar alpha m pots f 1) t))
        (mean (boltz kB T ((((n + 1 : ℕ) : ℝ) * kB * T / hbar) ^ 2) m (scU kB hbar alpha m pots f 1 T))
          (fun q => scpottd (pots q) (potssc alpha ((((n + 1 : ℕ) : ℝ) * kB * T / hbar) ^ 2) m (pots q) (f q))
            + K q) / (kB * T ^ 2)) T := by
  refine ⟨_, fun q => sckintd_eq h.diff h.force names q, ?_⟩
  have hP0 := beads_pos n
  have hP1 := one_le_beads n
  set P := ((n + 1 : ℕ) : ℝ) with hP
  obtain ⟨h1, h2, hN, e1⟩ := h.pair (p := fun s => (1 + s) / P) (p1 := fun _ => 1 / P) (p2 := fun _ => 0)
    (r := fun s => (1 + s) ^ 3 / P) (r1 := fun s => 3 * (1 + s) ^ 2 / P) (r2 := fun s => 6 * (1 + s) / P)
    (B := 12) (by norm_num) (fun s _ => ((hasDerivAt_id s).const_add 1).div_const _)
    (fun s _ => hasDerivAt_const _ _)
    (fun s _ => by
      have := (((hasDerivAt_id s).const_add 1).fun_pow 3).div_const P
      refine this.congr_deriv ?_
      simp)
    (fun s _ => by
      have := ((((hasDerivAt_id s).const_add 1).fun_pow 2).const_mul 3).div_const P
      refine this.congr_deriv ?_
      simp
      ring)
    (fun s hs => by
      have h0 : 0 < 1 + s := by linarith [hs.1]
      have h2 : 1 + s < 3 / 2 := by linarith [hs.2]
      have h3 : (1 + s) ^ 2 ≤ (3 / 2) ^ 2 := pow_le_pow_left₀ h0.le h2.le 2
      have h4 : (1 + s) ^ 3 ≤ (3 / 2) ^ 3 := pow_le_pow_left₀ h0.le h2.le 3
      norm_num at h3 h4
      have key : ∀ x : ℝ, 0 ≤ x → x ≤ 12 → |x / P| ≤ 12 := by
        intro x hx hx'
        rw [abs_of_nonneg (by positivity), div_le_iff₀ hP0]
        nlinarith
      exact ⟨⟨key _ h0.le (by linarith), key _ zero_le_one (by norm_num), by simp⟩,
        key _ (by positivity) (by linarith), key _ (by positivity) (by linarith),
        key _ (by positivity) (by linarith)⟩)
  have eh : (fun s q => (1 + s) / P * along (scV pots) s q
      + (1 + s) ^ 3 / P * along (scW ((P * kB * T / hbar) ^ 2) alpha m f) s q)
      = hOf T (scU kB hbar alpha m pots f 1) := by
    funext s q
    unfold hOf
    have := scU_eq kB hbar alpha T m pots f 1 1 (1 + s) (scaled q √(1 + s))
    simp only [one_mul] at this
    rw [this]
    unfold along
    rw [← hP]
    ring
  obtain ⟨c, hc, D, hl⟩ := h.conf
  have hC := confined_pair hc hl h.w0 (p := fun s => (1 + s) / P) (r := fun s => (1 + s) ^ 3 / P)
    (p0 := 1 / 2 / P) (p1 := 3 / 2 / P) (by positivity) fun s hs => by
      have h0 : 0 < 1 + s := by linarith [hs.1]
      exact ⟨div_le_div_of_nonneg_right (by linarith [hs.1]) hP0.le,
        div_le_div_of_nonneg_right (by linarith [hs.2]) hP0.le, by positivity⟩
  rw [eh] at hN hC
  obtain ⟨E, d1, d2, -⟩ := energy_capacity h.hkB h.hT h.hh h.hm (scU kB hbar alpha m pots f 1) hN hC
    (fun q => scpottd (pots q) (potssc alpha ((P * kB * T / hbar) ^ 2) m (pots q) (f q))
      + (3 / 2 * N * (kB * T) + (1 / 2 * fderiv ℝ (scU kB hbar alpha m pots f 1 T) q (fromC q)
        + scW ((P * kB * T / hbar) ^ 2) alpha m f q) / P)) _ (fun q => by
      rw [e1, scpottd_eq, h.grad]
      ring) fun _ => rfl
  rw [← d2]
  exact d1.self_of_nhds

/-- **The Suzuki-Chin kinetic energy** of `get_sckintd` averages to the derivative with respect to the
masses, times `kB T`. -/
theorem sc_kinetic (names : Fin N → String) :
    ∃ K : Conf n N → ℝ, (∀ q, sckintd kB T alpha ((((n + 1 : ℕ) : ℝ) * kB * T / hbar) ^ 2) m names .all q
        (f q) (fsc q) = .ok (K q)) ∧
      HasDerivAt (fun mu => Real.log (partition kB hbar (fun a => mu * m a)
          (scU kB hbar alpha (fun a => mu * m a) pots f 1) T))
        (mean (boltz kB T ((((n + 1 : ℕ) : ℝ) * kB * T / hbar) ^ 2) m (scU kB hbar alpha m pots f 1 T)) K
          / (kB * T)) 1 := by
  refine ⟨_, fun q => sckintd_eq h.diff h.force names q, ?_⟩
  have hP0 := beads_pos n
  have hP1 := one_le_beads n
  set P := ((n + 1 : ℕ) : ℝ) with hP
  obtain ⟨h1, h2, hN, e1⟩ := h.pair (p := fun _ => 1 / P) (p1 := fun _ => 0) (p2 := fun _ => 0)
    (r := fun s => (1 + s) / P) (r1 := fun _ => 1 / P) (r2 := fun _ => 0)
    (B := 2) (by norm_num) (fun _ _ => hasDerivAt_const _ _) (fun _ _ => hasDerivAt_const _ _)
    (fun s _ => ((hasDerivAt_id s).const_add 1).div_const _) (fun _ _ => hasDerivAt_const _ _)
    (fun s hs => by
      have h0 : 0 < 1 + s := by linarith [hs.1]
      have h2 : 1 + s < 3 / 2 := by linarith [hs.2]
      have key : ∀ x : ℝ, 0 ≤ x → x ≤ 2 → |x / P| ≤ 2 := by
        intro x hx hx'
        rw [abs_of_nonneg (by positivity), div_le_iff₀ hP0]
        nlinarith
      exact ⟨⟨key _ zero_le_one (by norm_num), by simp, by simp⟩,
        key _ h0.le (by linarith), key _ zero_le_one (by norm_num), by simp⟩)
  obtain ⟨c, hc, D, hl⟩ := h.conf
  have hC := confined_pair hc hl h.w0 (p := fun _ => 1 / P) (r := fun s => (1 + s) / P)
    (p0 := 1 / P) (p1 := 1 / P) (by positivity) fun s hs => by
      have h0 : 0 < 1 + s := by linarith [hs.1]
      exact ⟨le_rfl, le_rfl, by positivity⟩
  have eh : (fun s q => 1 / P * along (scV pots) s q
      + (1 + s) / P * along (scW ((P * kB * T / hbar) ^ 2) alpha m f) s q)
      = fun s q => scU kB hbar alpha (fun a => 1 / (1 + s) * m a) pots f 1 T (scaled q √(1 + s)) / P := by
    funext s q
    have := scU_eq kB hbar alpha T m pots f 1 (1 / (1 + s)) 1 (scaled q √(1 + s))
    simp only [div_one] at this
    rw [this]
    unfold along
    rw [← hP]
    simp
    ring
  rw [eh] at hN hC
  have := mass_deriv (T := T) h.hkB h.hT h.hh h.hm
    (fun mu => scU kB hbar alpha (fun a => mu * m a) pots f 1 T) hN hC
  refine this.congr_deriv ?_
  simp only [one_mul, ← hP]
  congr 2
  funext q
  rw [e1, h.grad]
  ring

/-- **The Suzuki-Chin potential energy** of `get_scpottd` averages to the derivative with respect to the
strength of the potential, times `-kB T`. -/
theorem sc_potential_energy :
    HasDerivAt (fun lam => Real.log (partition kB hbar m (scU kB hbar alpha m pots f lam) T))
      (-(1 / (kB * T)) * mean (boltz kB T ((((n + 1 : ℕ) : ℝ) * kB * T / hbar) ^ 2) m
          (scU kB hbar alpha m pots f 1 T))
        (fun q => scpottd (pots q) (potssc alpha ((((n + 1 : ℕ) : ℝ) * kB * T / hbar) ^ 2) m (pots q) (f q)))) 1 := by
  have hP0 := beads_pos n
  have hP1 := one_le_beads n
  set P := ((n + 1 : ℕ) : ℝ) with hP
  have hN := ((nice_const h.hv).scale (p := fun s => (1 + s) / P) (p1 := fun _ => 1 / P)
    (p2 := fun _ => 0) (B := 3) (by norm_num) (fun s _ => ((hasDerivAt_id s).const_add 1).div_const _)
    (fun _ _ => hasDerivAt_const _ _) (fun s hs => by
      have h0 : 0 < 1 + s := by linarith [hs.1]
      have h2 : 1 + s < 3 / 2 := by linarith [hs.2]
      have key : ∀ x : ℝ, 0 ≤ x → x ≤ 3 → |x / P| ≤ 3 := by
        intro x hx hx'
        rw [abs_of_nonneg (by positivity), div_le_iff₀ hP0]
        nlinarith
      exact ⟨key _ h0.le (by linarith), key _ zero_le_one (by norm_num), by simp⟩)).add
    ((nice_const h.hw).scale (p := fun s => (1 + s) ^ 2 / P) (p1 := fun s => 2 * (1 + s) / P)
    (p2 := fun _ => 2 / P) (B := 3) (by norm_num)
    (fun s _ => by
      have := (((hasDerivAt_id s).const_add 1).fun_pow 2).div_const P
      refine this.congr_deriv ?_
      simp)
    (fun s _ => by
      have := (((hasDerivAt_id s).const_add 1).const_mul 2).div_const P
      refine this.congr_deriv ?_
      simp) (fun s hs => by
      have h0 : 0 < 1 + s := by linarith [hs.1]
      have h2 : 1 + s < 3 / 2 := by linarith [hs.2]
      have key : ∀ x : ℝ, 0 ≤ x → x ≤ 3 → |x / P| ≤ 3 := by
        intro x hx hx'
        rw [abs_of_nonneg (by positivity), div_le_iff₀ hP0]
        nlinarith
      have h3 : (1 + s) ^ 2 ≤ (3 / 2) ^ 2 := pow_le_pow_left₀ h0.le h2.le 2
      norm_num at h3
      exact ⟨key _ (by positivity) (by linarith), key _ (by positivity) (by linarith),
        key _ (by norm_num) (by norm_num)⟩))
  obtain ⟨c, hc, D, hl⟩ := h.conf
  have hC := confined_pair0 hc hl h.w0 (p := fun s => (1 + s) / P) (r := fun s => (1 + s) ^ 2 / P)
    (p0 := 1 / 2 / P) (p1 := 3 / 2 / P) (by positivity) fun s hs => by
      have h0 : 0 < 1 + s := by linarith [hs.1]
      exact ⟨div_le_div_of_nonneg_right (by linarith [hs.1]) hP0.le,
        div_le_div_of_nonneg_right (by linarith [hs.2]) hP0.le, by positivity⟩
  have eh : (fun s q => (1 + s) / P * scV pots q
      + (1 + s) ^ 2 / P * scW ((P * kB * T / hbar) ^ 2) alpha m f q)
      = fun s q => scU kB hbar alpha m pots f (1 + s) T q / P := by
    funext s q
    have := scU_eq kB hbar alpha T m pots f (1 + s) 1 1 q
    simp only [div_one, one_mul, one_pow, mul_one] at this
    rw [this, ← hP]
    ring
  rw [eh] at hN hC
  have := coupling_deriv (T := T) h.hkB h.hT h.hh h.hm
    (fun lam => scU kB hbar alpha m pots f lam T) hN hC
  refine this.congr_deriv ?_
  rw [← hP]
  congr 2
  funext q
  rw [scpottd_eq]
  ring

end

/-! ### A harmonic trap -/

/-- The second derivatives of a quadratic function. -/
noncomputable def quadL (w : Fin (n + 1) × Fin N × Fin 3 → ℝ) : Conf n N →L[ℝ] Conf n N →L[ℝ] ℝ :=
  ∑ x, (2 * w x) • (ContinuousLinearMap.proj (R := ℝ) (φ := fun _ : Fin (n + 1) × Fin N × Fin 3 => ℝ) x).smulRight
    (ContinuousLinearMap.proj (R := ℝ) (φ := fun _ : Fin (n + 1) × Fin N × Fin 3 => ℝ) x)

/-- A quadratic function is smooth. -/
theorem quad_smooth (w : Fin (n + 1) × Fin N × Fin 3 → ℝ) : Smooth fun q : Conf n N => ∑ x, w x * q x ^ 2 := by
  have h1 : fderiv ℝ (fun q : Conf n N => ∑ x, w x * q x ^ 2) = quadL w := by
    funext q
    refine HasFDerivAt.fderiv ?_
    have : ∀ x, HasFDerivAt (fun q : Conf n N => w x * q x ^ 2)
        ((2 * w x * q x) • (ContinuousLinearMap.proj (R := ℝ) (φ := fun _ : Fin (n + 1) × Fin N × Fin 3 => ℝ) x))
        q := by
      intro x
      have e := ((ContinuousLinearMap.proj (R := ℝ) (φ := fun _ : Fin (n + 1) × Fin N × Fin 3 => ℝ) x).hasFDerivAt
        (x := q)).pow 2
      refine (e.const_mul (w x)).congr_fderiv ?_
      ext v
      simp
      ring
    refine (HasFDerivAt.fun_sum fun x _ => this x).congr_fderiv ?_
    ext v
    simp [quadL, mul_assoc]
  refine ⟨by fun_prop, ∑ x, |w x| + ‖quadL w‖, by positivity, 2, fun q => ?_⟩
  rw [h1]
  have hq : 0 ≤ ‖q‖ := norm_nonneg q
  have hL : 0 ≤ ‖quadL w‖ := (quadL w).opNorm_nonneg
  have hq1 : ‖q‖ ^ 2 ≤ (1 + ‖q‖) ^ 2 := pow_le_pow_left₀ hq (by linarith) 2
  have hq2 : ‖q‖ ≤ (1 + ‖q‖) ^ 2 := by nlinarith
  have hq3 : 1 ≤ (1 + ‖q‖) ^ 2 := by nlinarith
  have hcard : (0 : ℝ) ≤ ∑ x, |w x| := Finset.sum_nonneg fun x _ => abs_nonneg _
  refine ⟨?_, ?_, ?_⟩
  · have e : |∑ x, w x * q x ^ 2| ≤ (∑ x, |w x|) * ‖q‖ ^ 2 := by
      refine (Finset.abs_sum_le_sum_abs _ _).trans ?_
      rw [Finset.sum_mul]
      refine Finset.sum_le_sum fun x _ => ?_
      have h := norm_le_pi_norm q x
      rw [Real.norm_eq_abs] at h
      have h2 : q x ^ 2 ≤ ‖q‖ ^ 2 := by
        rw [← sq_abs]
        exact pow_le_pow_left₀ (abs_nonneg _) h 2
      rw [abs_mul, abs_of_nonneg (sq_nonneg (q x))]
      exact mul_le_mul_of_nonneg_left h2 (abs_nonneg _)
    refine e.trans ?_
    nlinarith
  · refine ((quadL w).le_opNorm q).trans ?_
    nlinarith
  · have : fderiv ℝ (⇑(quadL w)) q = quadL w := (quadL w).fderiv
    rw [this]
    nlinarith

/-- The potentials of the replicas in a harmonic trap. -/
noncomputable def trapPots (q : Conf n N) (b : Fin (n + 1)) : ℝ := ∑ a, ∑ d, 1 / 2 * q (b, a, d) ^ 2

/-- The Suzuki-Chin corrections of the forces in a harmonic trap. -/
noncomputable def trapFsc (kB hbar T alpha : ℝ) (m : Fin N → ℝ) (q : Conf n N) : Conf n N := fun x =>
  SC.coeff1 x.1 * -q x
    + SC.coeff2 alpha ((((n + 1 : ℕ) : ℝ) * kB * T / hbar) ^ 2) x.1 * (-2 * q x / m x.2.1)

theorem trap_scV (q : Conf n N) : scV trapPots q = ∑ x : Fin (n + 1) × Fin N × Fin 3,
    (if (x.1 : ℕ) % 2 = 0 then 1 / 3 else 2 / 3) * q x ^ 2 := by
  unfold scV trapPots
  simp only [Fintype.sum_prod_type, Finset.mul_sum]
  refine Finset.sum_congr rfl fun b _ => Finset.sum_congr rfl fun a _ => Finset.sum_congr rfl fun d _ => ?_
  split_ifs <;> ring

theorem trap_scW (omegan2 alpha : ℝ) (m : Fin N → ℝ) (q : Conf n N) :
    scW omegan2 alpha m (fun q => -q) q = ∑ x : Fin (n + 1) × Fin N × Fin 3,
      (SC.coeff2 alpha omegan2 x.1 / m x.2.1) * q x ^ 2 := by
  unfold scW
  simp only [Fintype.sum_prod_type, Finset.mul_sum]
  refine Finset.sum_congr rfl fun b _ => Finset.sum_congr rfl fun a _ => Finset.sum_congr rfl fun d _ => ?_
  rw [Pi.neg_apply]
  ring

/-- The hypotheses hold for a harmonic trap. -/
theorem trap_ok (hkB : 0 < kB) (hT : 0 < T) (hh : hbar ≠ 0) (hm : ∀ a, 0 < m a) (a0 : 0 ≤ alpha)
    (a1 : alpha ≤ 1) : ScOk (n := n) kB hbar T alpha m trapPots (fun q => -q) (trapFsc kB hbar T alpha m) where
  hkB := hkB
  hT := hT
  hh := hh
  hm := hm
  a0 := a0
  a1 := a1
  hv := by
    rw [show (scV trapPots : Conf n N → ℝ) = _ from funext trap_scV]
    exact quad_smooth _
  hw := by
    rw [show (scW _ alpha m (fun q => -q) : Conf n N → ℝ) = _ from funext (trap_scW _ alpha m)]
    exact quad_smooth _
  conf := by
    refine ⟨1 / 3, by norm_num, 0, fun q => ?_⟩
    rw [sub_zero, trap_scV]
    have h2 : ‖q‖ ≤ √(∑ x, q x ^ 2) := by
      rw [pi_norm_le_iff_of_nonneg (Real.sqrt_nonneg _)]
      intro x
      rw [Real.norm_eq_abs]
      exact Real.abs_le_sqrt (Finset.single_le_sum (f := fun x => q x ^ 2)
        (fun y _ => sq_nonneg _) (Finset.mem_univ x))
    have h3 : ‖q‖ ^ 2 ≤ ∑ x, q x ^ 2 := by
      calc ‖q‖ ^ 2 ≤ √(∑ x, q x ^ 2) ^ 2 := pow_le_pow_left₀ (norm_nonneg q) h2 2
        _ = ∑ x, q x ^ 2 := Real.sq_sqrt (Finset.sum_nonneg fun _ _ => sq_nonneg _)
    calc 1 / 3 * ‖q‖ ^ 2 ≤ 1 / 3 * ∑ x, q x ^ 2 := mul_le_mul_of_nonneg_left h3 (by norm_num)
      _ ≤ _ := by
        rw [Finset.mul_sum]
        refine Finset.sum_le_sum fun x _ => mul_le_mul_of_nonneg_right ?_ (sq_nonneg _)
        split_ifs <;> norm_num
  force := by
    intro q x
    have e : scU kB hbar alpha m trapPots (fun q : Conf n N => -q) 1 T = fun q => ∑ x : Fin (n + 1) × Fin N × Fin 3,
        ((if (x.1 : ℕ) % 2 = 0 then 1 / 3 else 2 / 3)
          + SC.coeff2 alpha ((((n + 1 : ℕ) : ℝ) * kB * T / hbar) ^ 2) x.1 / m x.2.1) * q x ^ 2 := by
      funext q
      rw [scU_one, trap_scV, trap_scW, ← Finset.sum_add_distrib]
      exact Finset.sum_congr rfl fun x _ => by ring
    rw [e]
    have hb : ∀ y : Fin (n + 1) × Fin N × Fin 3, ∀ w : ℝ,
        HasDerivAt (fun t => w * Function.update q x (q x + t) y ^ 2)
          (if y = x then 2 * w * q x else 0) 0 := by
      intro y w
      by_cases hy : y = x
      · subst hy
        simp only [Function.update_self, if_true]
        have := ((((hasDerivAt_id (0 : ℝ)).const_add (q y)).fun_pow 2).const_mul w)
        refine this.congr_deriv ?_
        simp
        ring
      · simp only [Function.update_of_ne hy, if_neg hy]
        exact hasDerivAt_const _ _
    have := HasDerivAt.fun_sum (u := Finset.univ) fun y _ => hb y
      ((if (y.1 : ℕ) % 2 = 0 then 1 / 3 else 2 / 3)
          + SC.coeff2 alpha ((((n + 1 : ℕ) : ℝ) * kB * T / hbar) ^ 2) y.1 / m y.2.1)
    refine this.congr_deriv ?_
    rw [Finset.sum_ite_eq' Finset.univ x, if_pos (Finset.mem_univ x)]
    simp only [Pi.add_apply, Pi.neg_apply, trapFsc]
    generalize SC.coeff2 alpha ((((n + 1 : ℕ) : ℝ) * kB * T / hbar) ^ 2) x.1 = c
    unfold SC.coeff1
    split_ifs <;> ring

/-- Four replicas of three atoms in a trap. -/
example : ∃ K : Conf 3 3 → ℝ, (∀ q, sckintd 1 1 0 ((((3 + 1 : ℕ) : ℝ) * 1 * 1 / 1) ^ 2) ![16, 1, 1]
      (fun _ => "H") .all q (-q) (trapFsc 1 1 1 0 ![16, 1, 1] q) = .ok (K q)) ∧
    ∃ E, HasDerivAt (fun t => Real.log (partition 1 1 ![16, 1, 1]
      (scU 1 1 0 ![16, 1, 1] trapPots (fun q : Conf 3 3 => -q) 1) t)) E 1 := by
  obtain ⟨K, h1, h2⟩ := sc_energy (trap_ok (n := 3) (N := 3) (kB := 1) (T := 1) (hbar := 1) (alpha := 0)
    (m := ![16, 1, 1]) one_pos one_pos one_ne_zero (fun a => by fin_cases a <;> simp) le_rfl zero_le_one)
    (fun _ => "H")
  exact ⟨K, h1, _, h2⟩

end

end Verif.Estim
