import Verif.Props.C106_SuzukiChin

/-!
# C107: scaled coordinates with Suzuki-Chin potentials

The average of the first number printed by `get_scyama_estimators` is smaller than the energy by twice
the average of the term with the squares of the forces.
-/

namespace Verif.Estim

open Finset MeasureTheory Topology Filter

section
variable {n N : ℕ} {kB hbar T alpha : ℝ} {m : Fin N → ℝ} {pots : Conf n N → Fin (n + 1) → ℝ}
  {f fsc : Conf n N → Conf n N}

/-- The potential that is displaced is the Suzuki-Chin potential. -/
theorem scyama_eq (c : Fd) (q : Conf n N) (fd : ℝ) (k : ℕ) :
    scyama c kB T alpha ((((n + 1 : ℕ) : ℝ) * kB * T / hbar) ^ 2) m pots f q fd k
      = yama c kB T (scU kB hbar alpha m pots f 1 T) (scU kB hbar alpha m pots f 1 T) q fd k := by
  have e : (fun q => ∑ b, pots q b
      + ∑ b, potssc alpha ((((n + 1 : ℕ) : ℝ) * kB * T / hbar) ^ 2) m (pots q) (f q) b)
      = scU kB hbar alpha m pots f 1 T := by
    funext q
    rw [scU_one, ← Finset.sum_add_distrib]
    unfold scV scW
    rw [← Finset.sum_add_distrib]
    refine Finset.sum_congr rfl fun b _ => ?_
    unfold potssc
    have e : ∑ a, ∑ d, f q (b, a, d) / m a * f q (b, a, d) = ∑ a, ∑ d, f q (b, a, d) ^ 2 / m a :=
      Finset.sum_congr rfl fun a _ => Finset.sum_congr rfl fun d _ => by ring
    rw [e]
    unfold SC.coeff1
    split_ifs <;> ring
  unfold scyama
  simp only [e]

theorem smooth_add {A B : Conf n N → ℝ} (hA : Smooth A) (hB : Smooth B) : Smooth fun q => A q + B q := by
  have hd : ∀ {A : Conf n N → ℝ}, Smooth A → Differentiable ℝ A := fun h => h.diff.differentiable (by norm_num)
  have hd1 : ∀ {A : Conf n N → ℝ}, Smooth A → Differentiable ℝ (fderiv ℝ A) := fun h =>
    ((h.diff.fderiv_right (m := 1) (by norm_num)).differentiable (by norm_num))
  have e1 : fderiv ℝ (fun q => A q + B q) = fun q => fderiv ℝ A q + fderiv ℝ B q :=
    funext fun q => fderiv_fun_add (hd hA q) (hd hB q)
  have e2 : fderiv ℝ (fderiv ℝ fun q => A q + B q)
      = fun q => fderiv ℝ (fderiv ℝ A) q + fderiv ℝ (fderiv ℝ B) q := by
    rw [e1]
    exact funext fun q => fderiv_fun_add (hd1 hA q) (hd1 hB q)
  refine ⟨hA.diff.add hB.diff, ?_⟩
  obtain ⟨C, hC, k, hb⟩ := hA.bound
  obtain ⟨C', hC', k', hb'⟩ := hB.bound
  refine ⟨C + C', by positivity, k + k', fun q => ?_⟩
  rw [e2, e1]
  beta_reduce
  have m1 := pow_mono_bound hC le_rfl (Nat.le_add_right k k') q
  have m2 := pow_mono_bound hC' le_rfl (Nat.le_add_left k' k) q
  obtain ⟨a0, a1, a2⟩ := hb q
  obtain ⟨b0, b1, b2⟩ := hb' q
  rw [add_mul]
  exact ⟨(abs_add_le _ _).trans (add_le_add (a0.trans m1) (b0.trans m2)),
    (norm_add_le _ _).trans (add_le_add (a1.trans m1) (b1.trans m2)),
    (ContinuousLinearMap.opNorm_add_le _ _).trans (add_le_add (a2.trans m1) (b2.trans m2))⟩

/-- The potential is smooth and confining, and averages exist. -/
theorem ScOk.means (h : ScOk kB hbar T alpha m pots f fsc) :
    Smooth (scU kB hbar alpha m pots f 1 T) ∧
    Integrable (boltz kB T ((((n + 1 : ℕ) : ℝ) * kB * T / hbar) ^ 2) m (scU kB hbar alpha m pots f 1 T)) ∧
    (0 < ∫ q, boltz kB T ((((n + 1 : ℕ) : ℝ) * kB * T / hbar) ^ 2) m (scU kB hbar alpha m pots f 1 T) q) ∧
    ∀ g : Conf n N → ℝ, Continuous g → (∃ C : ℝ, ∃ k : ℕ, ∀ q, |g q| ≤ C * (1 + ‖q‖) ^ k) →
      Integrable fun q => g q
        * boltz kB T ((((n + 1 : ℕ) : ℝ) * kB * T / hbar) ^ 2) m (scU kB hbar alpha m pots f 1 T) q := by
  have e : scU kB hbar alpha m pots f 1 T = fun q => scV pots q
      + scW ((((n + 1 : ℕ) : ℝ) * kB * T / hbar) ^ 2) alpha m f q := funext fun q => scU_one q
  have hS : Smooth (scU kB hbar alpha m pots f 1 T) := by
    rw [e]
    exact smooth_add h.hv h.hw
  obtain ⟨a, ha, D, hl⟩ := h.conf
  have hC : Confined (hOf T fun _ => scU kB hbar alpha m pots f 1 T) :=
    confined_V T ha (D := D) fun q => by
      rw [e]
      have := hl q
      have := h.w0 q
      linarith
  have h0 : ∀ q : Conf n N, hOf T (fun _ => scU kB hbar alpha m pots f 1 T) 0 q
      = scU kB hbar alpha m pots f 1 T q / ((n + 1 : ℕ) : ℝ) := by
    intro q
    have h0 : scaled q √(1 + 0) = q := by
      ext x
      simp [scaled]
    unfold hOf
    rw [h0]
    ring
  exact ⟨hS, mean_ok (hbar := hbar) (mul_pos h.hkB h.hT) h.hh h.hm (nice_V T hS) hC h0⟩

/-- The average of the term with the squares of the forces exists. -/
theorem ScOk.w_int (h : ScOk kB hbar T alpha m pots f fsc) : Integrable fun q : Conf n N =>
    scW ((((n + 1 : ℕ) : ℝ) * kB * T / hbar) ^ 2) alpha m f q / ((n + 1 : ℕ) : ℝ)
      * boltz kB T ((((n + 1 : ℕ) : ℝ) * kB * T / hbar) ^ 2) m (scU kB hbar alpha m pots f 1 T) q := by
  have hP0 := beads_pos n
  obtain ⟨C', hC', k', hbd'⟩ := h.hw.bound
  exact h.means.2.2.2 _ (h.hw.diff.continuous.div_const _) ⟨C', k', fun q => by
        rw [abs_div, abs_of_pos hP0, div_le_iff₀ hP0]
        have := (hbd' q).1
        have h1 := one_le_beads n
        have h2 : 0 ≤ C' * (1 + ‖q‖) ^ k' := by positivity
        nlinarith⟩

/-- It is positive unless there are no forces. -/
theorem ScOk.w_pos (h : ScOk kB hbar T alpha m pots f fsc) {q : Conf n N}
    (hq : scW ((((n + 1 : ℕ) : ℝ) * kB * T / hbar) ^ 2) alpha m f q ≠ 0) :
    0 < mean (boltz kB T ((((n + 1 : ℕ) : ℝ) * kB * T / hbar) ^ 2) m (scU kB hbar alpha m pots f 1 T))
      (fun q => scW ((((n + 1 : ℕ) : ℝ) * kB * T / hbar) ^ 2) alpha m f q / ((n + 1 : ℕ) : ℝ)) := by
  have hP0 := beads_pos n
  obtain ⟨hS, i0, i1, -⟩ := h.means
  refine div_pos ?_ i1
  have hw : Continuous (scW ((((n + 1 : ℕ) : ℝ) * kB * T / hbar) ^ 2) alpha m f) := h.hw.diff.continuous
  have hu : Continuous (scU kB hbar alpha m pots f 1 T) := hS.diff.continuous
  have hb : Continuous (boltz kB T ((((n + 1 : ℕ) : ℝ) * kB * T / hbar) ^ 2) m
      (scU kB hbar alpha m pots f 1 T)) := by
    have hk := mul_pos h.hkB h.hT
    have e : boltz kB T ((((n + 1 : ℕ) : ℝ) * kB * T / hbar) ^ 2) m (scU kB hbar alpha m pots f 1 T)
        = fun q => Real.exp (-(1 / (kB * T) * (scU kB hbar alpha m pots f 1 T q / ((n + 1 : ℕ) : ℝ)))
          - springS kB hbar T m q) := by
      funext q
      rw [boltz_springS hk h.hh]
    rw [e]
    have := springS_cont (n := n) (kB := kB) (hbar := hbar) (T := T) (m := m)
    fun_prop
  refine integral_pos_of_integrable_nonneg_nonzero (x := q) ((hw.div_const _).mul hb) h.w_int
    (fun q => mul_nonneg (div_nonneg (h.w0 q) hP0.le) (Real.exp_pos _).le) ?_
  exact mul_ne_zero (div_ne_zero hq hP0.ne') (Real.exp_pos _).ne'

/-- **The error of the scaled-coordinates estimator.**  For every displacement a value is printed; it has
a limit when the displacement goes to zero; the average of the limit is not the energy but differs from
it by twice the average of the term with the squares of the forces. -/
theorem scyama_partial (h : ScOk kB hbar T alpha m pots f fsc) (c : Fd) :
    ∃ eps eps' : Conf n N → ℝ,
      (∀ q, ∃ e : ℝ → ℝ × ℝ, (∀ db, 0 < db → ∀ k,
          scyama c kB T alpha ((((n + 1 : ℕ) : ℝ) * kB * T / hbar) ^ 2) m pots f q db (k + 1) = some (e db)) ∧
        Tendsto e (𝓝[>] 0) (𝓝 (eps q, eps' q))) ∧
      HasDerivAt (fun t => Real.log (partition kB hbar m (scU kB hbar alpha m pots f 1) t))
        ((mean (boltz kB T ((((n + 1 : ℕ) : ℝ) * kB * T / hbar) ^ 2) m (scU kB hbar alpha m pots f 1 T)) eps
          + 2 * mean (boltz kB T ((((n + 1 : ℕ) : ℝ) * kB * T / hbar) ^ 2) m (scU kB hbar alpha m pots f 1 T))
              (fun q => scW ((((n + 1 : ℕ) : ℝ) * kB * T / hbar) ^ 2) alpha m f q / ((n + 1 : ℕ) : ℝ)))
          / (kB * T ^ 2)) T := by
  have hP0 := beads_pos n
  obtain ⟨hS, i0, i1, i2⟩ := h.means
  have hN := nice_V T hS
  refine ⟨fun q => (1 / ((n + 1 : ℕ) : ℝ) * along (scU kB hbar alpha m pots f 1 T) 0 q
      + (1 + 0) / ((n + 1 : ℕ) : ℝ) * along1 (scU kB hbar alpha m pots f 1 T) 0 q) + 3 / 2 * N * (kB * T),
    fun q => (0 * along (scU kB hbar alpha m pots f 1 T) 0 q
      + 2 * (1 / ((n + 1 : ℕ) : ℝ)) * along1 (scU kB hbar alpha m pots f 1 T) 0 q
      + (1 + 0) / ((n + 1 : ℕ) : ℝ) * along2 (scU kB hbar alpha m pots f 1 T) 0 q) * (kB * T)
      - 3 / 2 * N * (kB * T) ^ 2, fun q => ?_, ?_⟩
  · simp only [scyama_eq]
    exact yama_limit c (mul_pos h.hkB h.hT) hN q
  · obtain ⟨K, hK, hE⟩ := sc_energy h (fun _ => "")
    refine hE.congr_deriv ?_
    congr 1
    have hs0 : (0 : ℝ) ∈ Set.Ioo (-1 / 2 : ℝ) (1 / 2) := by constructor <;> norm_num
    obtain ⟨C, -, k, hbd⟩ := hN.bound
    have j1 := i2 _ (hN.c1 0 hs0) ⟨C, k, fun q => (hbd 0 hs0 q).2.1⟩
    have j2 := h.w_int
    have j3 : Integrable fun q : Conf n N => (2 * (scW ((((n + 1 : ℕ) : ℝ) * kB * T / hbar) ^ 2) alpha m f q
        / ((n + 1 : ℕ) : ℝ)))
        * boltz kB T ((((n + 1 : ℕ) : ℝ) * kB * T / hbar) ^ 2) m (scU kB hbar alpha m pots f 1 T) q := by
      have := j2.const_mul 2
      simpa only [mul_assoc] using this
    have e2 : 2 * mean (boltz kB T ((((n + 1 : ℕ) : ℝ) * kB * T / hbar) ^ 2) m (scU kB hbar alpha m pots f 1 T))
        (fun q => scW ((((n + 1 : ℕ) : ℝ) * kB * T / hbar) ^ 2) alpha m f q / ((n + 1 : ℕ) : ℝ))
        = mean (boltz kB T ((((n + 1 : ℕ) : ℝ) * kB * T / hbar) ^ 2) m (scU kB hbar alpha m pots f 1 T))
        (fun q => 2 * (scW ((((n + 1 : ℕ) : ℝ) * kB * T / hbar) ^ 2) alpha m f q / ((n + 1 : ℕ) : ℝ))) := by
      unfold mean
      rw [← mul_div_assoc, ← integral_const_mul]
      congr 2
      funext q
      ring
    have j4 : Integrable fun q : Conf n N => (1 / ((n + 1 : ℕ) : ℝ) * along (scU kB hbar alpha m pots f 1 T) 0 q
        + (1 + 0) / ((n + 1 : ℕ) : ℝ) * along1 (scU kB hbar alpha m pots f 1 T) 0 q + 3 / 2 * N * (kB * T))
        * boltz kB T ((((n + 1 : ℕ) : ℝ) * kB * T / hbar) ^ 2) m (scU kB hbar alpha m pots f 1 T) q := by
      have := j1.add (i0.const_mul (3 / 2 * N * (kB * T)))
      refine this.congr (Filter.Eventually.of_forall fun q => ?_)
      simp only [Pi.add_apply]
      ring
    rw [e2, ← mean_add j4 j3]
    congr 1
    funext q
    have hk := (sckintd_eq (omegan2 := (((n + 1 : ℕ) : ℝ) * kB * T / hbar) ^ 2) h.diff h.force
      (fun _ => "") q).symm.trans (hK q)
    injection hk with hk
    rw [← hk, scpottd_eq]
    have h0 : scaled q √(1 + 0) = q := by
      ext x
      simp [scaled]
    unfold along along1
    rw [h0, add_zero, Real.sqrt_one, scU_one]
    ring

/-- In a harmonic trap the average is not the energy. -/
theorem scyama_wrong (hkB : 0 < kB) (hT : 0 < T) (hh : hbar ≠ 0) {m : Fin 1 → ℝ} (hm : ∀ a, 0 < m a) (c : Fd) :
    ∃ eps eps' : Conf 1 1 → ℝ,
      (∀ q, ∃ e : ℝ → ℝ × ℝ, (∀ db, 0 < db → ∀ k,
          scyama c kB T 0 ((((1 + 1 : ℕ) : ℝ) * kB * T / hbar) ^ 2) m trapPots (fun q => -q) q db (k + 1)
            = some (e db)) ∧
        Tendsto e (𝓝[>] 0) (𝓝 (eps q, eps' q))) ∧
      ∃ E, mean (boltz kB T ((((1 + 1 : ℕ) : ℝ) * kB * T / hbar) ^ 2) m
          (scU kB hbar 0 m trapPots (fun q => -q) 1 T)) eps < E ∧
        HasDerivAt (fun t => Real.log (partition kB hbar m
          (scU kB hbar 0 m trapPots (fun q : Conf 1 1 => -q) 1) t)) (E / (kB * T ^ 2)) T := by
  have h := trap_ok (n := 1) hkB hT hh hm le_rfl zero_le_one (alpha := 0)
  obtain ⟨eps, eps', h1, h2⟩ := scyama_partial h c
  refine ⟨eps, eps', h1, _, ?_, h2⟩
  rw [lt_add_iff_pos_right]
  refine mul_pos two_pos ?_
  refine h.w_pos (q := fun _ => 1) ?_
  rw [trap_scW]
  have hpos : 0 < ((((1 + 1 : ℕ) : ℝ) * kB * T / hbar) ^ 2) := by positivity
  have hm0 := hm 0
  refine ne_of_gt (Finset.sum_pos' (fun x _ => ?_) ⟨(1, 0, 0), Finset.mem_univ _, ?_⟩)
  · have hmx := hm x.2.1
    unfold SC.coeff2
    split_ifs <;> simp
    positivity
  · unfold SC.coeff2
    simp
    positivity

/-- The hypotheses can be met. -/
example := scyama_wrong (kB := 1) (T := 1) (hbar := 1) one_pos one_pos one_ne_zero (m := fun _ => 1)
  (fun _ => one_pos) {}

end

end Verif.Estim
