import Verif.Props.C101_Isotopes

/-!
# C102: the displaced path estimator averages to the end-to-end distribution

Specification: the path of one atom is opened by letting its last spring end at the first replica
displaced by `u`.  The end-to-end distribution is the ratio of the partition functions of the opened and
the closed path.
-/

namespace Verif.Estim

open Finset MeasureTheory

section
variable {n N : ℕ} {kB T omegan2 hbar : ℝ} {m : Fin N → ℝ} {V : Conf n N → ℝ}

/-- Specification: the extension of the spring after replica `b`; the last one of atom `i` ends at the
first replica displaced by `u`. -/
def gap (i : Fin N) (u : Fin 3 → ℝ) (q : Conf n N) (b : Fin (n + 1)) (a : Fin N) (d : Fin 3) : ℝ :=
  if a = i ∧ b = Fin.last n then (q (0, a, d) + u d) - q (b, a, d) else q (b + 1, a, d) - q (b, a, d)

/-- Specification: the Boltzmann weight of the path of atom `i` opened by `u`. -/
noncomputable def openBoltz (kB T omegan2 : ℝ) (m : Fin N → ℝ) (V : Conf n N → ℝ) (i : Fin N)
    (u : Fin 3 → ℝ) (q : Conf n N) : ℝ :=
  Real.exp (-(V q + ∑ a, ∑ d, ∑ b : Fin (n + 1), 1 / 2 * m a * omegan2 * gap i u q b a d ^ 2)
    / (kB * T * ((n + 1 : ℕ) : ℝ)))

/-- Specification: the mean over the atoms `A` of the end-to-end distribution, relative to its value
for closed paths. -/
noncomputable def endToEnd (kB T omegan2 : ℝ) (m : Fin N → ℝ) (V : Conf n N → ℝ) (A : Finset (Fin N))
    (u : Fin 3 → ℝ) : ℝ :=
  (∑ i ∈ A, (∫ q, openBoltz kB T omegan2 m V i u q) / ∫ q, boltz kB T omegan2 m V q) / A.card

/-- Not opening the path changes nothing. -/
theorem openBoltz_zero (i : Fin N) (q : Conf n N) :
    openBoltz kB T omegan2 m V i 0 q = boltz kB T omegan2 m V q := by
  unfold openBoltz boltz gap
  congr 4
  refine Finset.sum_congr rfl fun a _ => Finset.sum_congr rfl fun d _ => Finset.sum_congr rfl fun b _ => ?_
  split
  · rename_i h
    rw [h.2, Fin.last_add_one, Pi.zero_apply, add_zero]
  · rfl

/-- The displacements have no net effect on the centroid. -/
theorem opening_sum : ∑ b : Fin (n + 1), opening b = 0 := by
  unfold opening
  rw [Finset.sum_add_distrib, ← Finset.sum_div, Finset.sum_const, Finset.card_univ, Fintype.card_fin]
  have h : ∑ b : Fin (n + 1), ((b : ℕ) : ℝ) = ((n + 1 : ℕ) : ℝ) * n / 2 := by
    rw [Fin.sum_univ_eq_sum_range fun i => (i : ℝ)]
    have := Finset.sum_range_id_mul_two (n + 1)
    have h2 : ((∑ i ∈ range (n + 1), i : ℕ) : ℝ) * 2 = ((n + 1 : ℕ) : ℝ) * n := by
      exact_mod_cast this
    rw [← h2]
    push_cast
    ring
  rw [h, nsmul_eq_mul, show (0.5 : ℝ) = 1 / 2 by norm_num]
  have hP : ((n + 1 : ℕ) : ℝ) ≠ 0 := by positivity
  field_simp
  push_cast
  ring

theorem qc_opened (q : Conf n N) (i : Fin N) (u : Fin 3 → ℝ) (a : Fin N) (d : Fin 3) :
    qc (opened q i u) a d = qc q a d := by
  unfold qc opened
  by_cases h : a = i
  · simp only [h, if_true, Finset.sum_add_distrib, ← Finset.sum_mul, opening_sum, zero_mul, add_zero]
  · simp [h]

theorem gap_opened (i : Fin N) (u : Fin 3 → ℝ) (q : Conf n N) (b : Fin (n + 1)) (d : Fin 3) :
    gap i u (opened q i u) b i d = (q (b + 1, i, d) - q (b, i, d)) + u d / ((n + 1 : ℕ) : ℝ) := by
  have hP : ((n + 1 : ℕ) : ℝ) ≠ 0 := by positivity
  unfold gap opened opening
  rw [show (0.5 : ℝ) = 1 / 2 by norm_num]
  by_cases hb : b = Fin.last n
  · subst hb
    simp only [and_self, if_true, Fin.last_add_one, Fin.val_last, Fin.val_zero]
    field_simp
    push_cast
    ring
  · simp only [hb, and_false, if_false, if_true]
    have : ((b + 1 : Fin (n + 1)) : ℕ) = b + 1 := by
      rw [Fin.val_add_one, if_neg hb]
    rw [this]
    field_simp
    push_cast
    ring

theorem gap_other {i a : Fin N} (h : a ≠ i) (u : Fin 3 → ℝ) (q : Conf n N) (b : Fin (n + 1)) (d : Fin 3) :
    gap i u (opened q i u) b a d = q (b + 1, a, d) - q (b, a, d) := by
  simp [gap, opened, h]

/-- The spring energy of the displaced path. -/
theorem gap_sum (i : Fin N) (u : Fin 3 → ℝ) (q : Conf n N) :
    ∑ a, ∑ d, ∑ b : Fin (n + 1), 1 / 2 * m a * omegan2 * gap i u (opened q i u) b a d ^ 2
      = (∑ a, ∑ d, ∑ b : Fin (n + 1), 1 / 2 * m a * omegan2 * (q (b + 1, a, d) - q (b, a, d)) ^ 2)
        + 1 / 2 * m i * omegan2 * (∑ d, u d * u d) / ((n + 1 : ℕ) : ℝ) := by
  have hP : ((n + 1 : ℕ) : ℝ) ≠ 0 := by positivity
  rw [← Finset.add_sum_erase univ _ (Finset.mem_univ i),
    ← Finset.add_sum_erase univ (fun a => ∑ d, ∑ b : Fin (n + 1),
      1 / 2 * m a * omegan2 * (q (b + 1, a, d) - q (b, a, d)) ^ 2) (Finset.mem_univ i)]
  have h1 : ∑ a ∈ univ.erase i, ∑ d, ∑ b : Fin (n + 1),
        1 / 2 * m a * omegan2 * gap i u (opened q i u) b a d ^ 2
      = ∑ a ∈ univ.erase i, ∑ d, ∑ b : Fin (n + 1),
        1 / 2 * m a * omegan2 * (q (b + 1, a, d) - q (b, a, d)) ^ 2 := by
    refine Finset.sum_congr rfl fun a ha => ?_
    simp only [gap_other (Finset.ne_of_mem_erase ha)]
  have h2 : ∀ d, ∑ b : Fin (n + 1), 1 / 2 * m i * omegan2 * gap i u (opened q i u) b i d ^ 2
      = (∑ b : Fin (n + 1), 1 / 2 * m i * omegan2 * (q (b + 1, i, d) - q (b, i, d)) ^ 2)
        + 1 / 2 * m i * omegan2 * (u d * u d) / ((n + 1 : ℕ) : ℝ) := by
    intro d
    have h3 : ∑ b : Fin (n + 1), (q (b + 1, i, d) - q (b, i, d)) = 0 := by
      rw [Finset.sum_sub_distrib, sub_eq_zero]
      exact Equiv.sum_comp (Equiv.addRight (1 : Fin (n + 1))) fun b => q (b, i, d)
    have h4 : ∀ b : Fin (n + 1), 1 / 2 * m i * omegan2 * gap i u (opened q i u) b i d ^ 2
        = 1 / 2 * m i * omegan2 * (q (b + 1, i, d) - q (b, i, d)) ^ 2
          + (m i * omegan2 * u d / ((n + 1 : ℕ) : ℝ)) * (q (b + 1, i, d) - q (b, i, d))
          + 1 / 2 * m i * omegan2 * (u d / ((n + 1 : ℕ) : ℝ)) ^ 2 := by
      intro b
      rw [gap_opened]
      ring
    simp only [h4]
    rw [Finset.sum_add_distrib, Finset.sum_add_distrib, ← Finset.mul_sum _ _ (m i * omegan2 * u d / _), h3,
      Finset.sum_const, Finset.card_univ, Fintype.card_fin, nsmul_eq_mul]
    field_simp
    ring
  rw [h1]
  simp only [h2]
  rw [Finset.sum_add_distrib, ← Finset.sum_div, ← Finset.mul_sum]
  ring

/-- The factor of the estimator turns the distribution of closed paths into that of the opened one, at
the displaced path. -/
theorem openBoltz_opened (hT : kB * T ≠ 0) (hh : hbar ≠ 0)
    (hw : omegan2 = (((n + 1 : ℕ) : ℝ) * kB * T / hbar) ^ 2) (i : Fin N) (u : Fin 3 → ℝ) (q : Conf n N) :
    Real.exp (-m i * (∑ d, u d * u d) / (2 * (1 / (T * kB)) * hbar ^ 2))
        * Real.exp (-(V (opened q i u) - V q) * (1 / (T * kB)) / ((n + 1 : ℕ) : ℝ))
        * boltz kB T omegan2 m V q
      = openBoltz kB T omegan2 m V i u (opened q i u) := by
  have hP : ((n + 1 : ℕ) : ℝ) ≠ 0 := by positivity
  have hk : kB ≠ 0 := left_ne_zero_of_mul hT
  have ht : T ≠ 0 := right_ne_zero_of_mul hT
  unfold openBoltz boltz
  rw [gap_sum, ← Real.exp_add, ← Real.exp_add]
  congr 1
  rw [hw]
  generalize (∑ a, ∑ d, ∑ b : Fin (n + 1), 1 / 2 * m a * (((n + 1 : ℕ) : ℝ) * kB * T / hbar) ^ 2
    * (q (b + 1, a, d) - q (b, a, d)) ^ 2) = S
  field_simp
  ring

theorem opened_add (q : Conf n N) (i : Fin N) (u : Fin 3 → ℝ) :
    opened q i u = q + fun x => if x.2.1 = i then opening x.1 * u x.2.2 else 0 := by
  ext x
  simp only [opened, Pi.add_apply]
  split <;> simp

theorem linlin_ok (names : Fin N → String) (s : Sel) (hs : s.check N = .ok ())
    (hne : (s.atoms names).Nonempty) (u : Fin 3 → ℝ) (V V' : Conf n N → ℝ) (q : Conf n N) :
    linlin kB T hbar m names s u V V' q = .ok ((∑ a ∈ s.atoms names,
      Real.exp (-m a * (∑ d, u d * u d) / (2 * (1 / (T * kB)) * hbar ^ 2))
        * Real.exp (-(V' (opened q a u) - V q) * (1 / (T * kB)) / ((n + 1 : ℕ) : ℝ)))
      / ((s.atoms names).card : ℝ)) := by
  have hc : (s.atoms names).card ≠ 0 := Finset.card_ne_zero.2 hne
  unfold linlin
  rw [hs]
  simp only [bind, Except.bind, if_neg hc, pure, Except.pure]

/-- **The displaced path estimator averages to the end-to-end distribution** of the selected atoms, for
every opening vector. -/
theorem linlin_mean (hT : kB * T ≠ 0) (hh : hbar ≠ 0)
    (hw : omegan2 = (((n + 1 : ℕ) : ℝ) * kB * T / hbar) ^ 2) (names : Fin N → String) (s : Sel)
    (hs : s.check N = .ok ()) (hne : (s.atoms names).Nonempty) (u : Fin 3 → ℝ)
    (hI : ∀ i ∈ s.atoms names, Integrable (openBoltz kB T omegan2 m V i u)) :
    ∃ x : Conf n N → ℝ, (∀ q, linlin kB T hbar m names s u V V q = .ok (x q)) ∧
      Integrable (fun q => x q * boltz kB T omegan2 m V q) ∧
      (∫ q, x q * boltz kB T omegan2 m V q) / ∫ q, boltz kB T omegan2 m V q
        = endToEnd kB T omegan2 m V (s.atoms names) u := by
  refine ⟨_, linlin_ok names s hs hne u V V, ?_⟩
  have e1 : ∀ q, (∑ a ∈ s.atoms names,
      Real.exp (-m a * (∑ d, u d * u d) / (2 * (1 / (T * kB)) * hbar ^ 2))
        * Real.exp (-(V (opened q a u) - V q) * (1 / (T * kB)) / ((n + 1 : ℕ) : ℝ)))
      / ((s.atoms names).card : ℝ) * boltz kB T omegan2 m V q
      = (1 / ((s.atoms names).card : ℝ)) * ∑ a ∈ s.atoms names,
        openBoltz kB T omegan2 m V a u (opened q a u) := by
    intro q
    simp only [← openBoltz_opened hT hh hw]
    rw [← Finset.sum_mul]
    ring
  simp only [e1]
  have hi : ∀ a ∈ s.atoms names, Integrable fun q => openBoltz kB T omegan2 m V a u (opened q a u) := by
    intro a ha
    simp only [opened_add]
    exact (hI a ha).comp_add_right _
  refine ⟨(integrable_finsetSum _ hi).const_mul _, ?_⟩
  rw [integral_const_mul, integral_finsetSum _ hi, endToEnd, ← Finset.sum_div]
  have h2 : ∀ a, ∫ q, openBoltz kB T omegan2 m V a u (opened q a u)
      = ∫ q, openBoltz kB T omegan2 m V a u q := by
    intro a
    simp only [opened_add]
    exact integral_add_right_eq_self _ _
  simp only [h2]
  ring

/-- The opened paths have a partition function whenever unconnected replicas have one. -/
theorem openBoltz_integrable (hk : 0 < kB * T) (hw : 0 ≤ omegan2) (hm : ∀ a, 0 ≤ m a) (hV : Continuous V)
    (hI : Integrable (boltz kB T 0 m V)) (i : Fin N) (u : Fin 3 → ℝ) :
    Integrable (openBoltz kB T omegan2 m V i u) := by
  have hg : ∀ b a d, Continuous fun q : Conf n N => gap i u q b a d := by
    intro b a d
    unfold gap
    split <;> fun_prop
  refine hI.mono' (Continuous.aestronglyMeasurable ?_) (Filter.Eventually.of_forall fun q => ?_)
  · unfold openBoltz
    fun_prop
  · unfold openBoltz boltz
    rw [Real.norm_eq_abs, abs_of_pos (Real.exp_pos _)]
    refine Real.exp_le_exp.2 (div_le_div_of_nonneg_right ?_ (by positivity))
    have h : 0 ≤ ∑ a, ∑ d, ∑ b : Fin (n + 1), 1 / 2 * m a * omegan2 * gap i u q b a d ^ 2 :=
      Finset.sum_nonneg fun a _ => Finset.sum_nonneg fun d _ => Finset.sum_nonneg fun b _ => by
        have := hm a
        positivity
    simp only [mul_zero, zero_mul, Finset.sum_const_zero]
    linarith

/-- The hydrogen atoms of three atoms in a harmonic trap. -/
example (u : Fin 3 → ℝ) : ∃ x : Conf 3 3 → ℝ,
    (∀ q, linlin 1 1 2 ![16, 1, 1] ![ "O", "H", "H"] (.label "H") u (fun q => ∑ x, 1 / 2 * q x ^ 2)
      (fun q => ∑ x, 1 / 2 * q x ^ 2) q = .ok (x q)) ∧
    (∫ q, x q * boltz 1 1 4 ![16, 1, 1] (fun q => ∑ x, 1 / 2 * q x ^ 2) q)
        / (∫ q, boltz 1 1 4 ![16, 1, 1] (fun q : Conf 3 3 => ∑ x, 1 / 2 * q x ^ 2) q)
      = endToEnd 1 1 4 ![16, 1, 1] (fun q : Conf 3 3 => ∑ x, 1 / 2 * q x ^ 2)
        (Sel.atoms ![ "O", "H", "H"] (.label "H")) u := by
  have hm : ∀ a, 0 ≤ (![16, 1, 1] : Fin 3 → ℝ) a := by
    intro a
    fin_cases a <;> simp
  obtain ⟨x, h1, -, h2⟩ := linlin_mean (n := 3) (N := 3) (kB := 1) (T := 1) (hbar := 2) (omegan2 := 4)
    (m := ![16, 1, 1]) (V := fun q => ∑ x, 1 / 2 * q x ^ 2) (by norm_num) (by norm_num) (by norm_num)
    ![ "O", "H", "H"] (.label "H") rfl ⟨1, by simp [Sel.atoms, Sel.takes]⟩ u
    fun i _ => openBoltz_integrable (by norm_num) (by norm_num) hm (by fun_prop)
      (trap_averages (by norm_num) le_rfl hm).one i u
  exact ⟨x, h1, h2⟩

/-- Without an opening the estimator is one. -/
theorem linlin_zero (names : Fin N → String) (s : Sel) (hs : s.check N = .ok ())
    (hne : (s.atoms names).Nonempty) (q : Conf n N) :
    linlin kB T hbar m names s 0 V V q = .ok 1 := by
  have hc : ((s.atoms names).card : ℝ) ≠ 0 := by exact_mod_cast Finset.card_ne_zero.2 hne
  have : ∀ a, opened q a 0 = q := by
    intro a
    ext x
    simp [opened]
  rw [linlin_ok names s hs hne]
  simp [this, hc]

/-- A label or index without atoms raises an exception. -/
theorem linlin_none (names : Fin N → String) (s : Sel) (hne : ¬(s.atoms names).Nonempty)
    (u : Fin 3 → ℝ) (V' : Conf n N → ℝ) (q : Conf n N) :
    linlin kB T hbar m names s u V V' q = .error .index := by
  have hc : (s.atoms names).card = 0 := by
    rw [Finset.card_eq_zero]
    exact Finset.not_nonempty_iff_eq_empty.1 hne
  unfold linlin
  cases h : s.check N with
  | error e =>
    cases s with
    | all => simp [Sel.check] at h
    | idx k =>
      simp only [Sel.check] at h
      split at h
      · cases h
        rfl
      · cases h
    | label l => simp [Sel.check] at h
  | ok _ =>
    simp only [bind, Except.bind, hc, if_true]
    rfl

end

end Verif.Estim
