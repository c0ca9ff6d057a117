import Verif.Props.C103_Smooth
import Mathlib.Analysis.Calculus.LHopital
import Mathlib.Analysis.Calculus.Deriv.Slope

/-!
# C103: the scaled-coordinates estimators give the energy and the heat capacity
-/

namespace Verif.Estim

open Finset MeasureTheory Topology Filter

section
variable {n N : ℕ} {kB hbar T : ℝ} {m : Fin N → ℝ} {V : Conf n N → ℝ} {f : Conf n N → Conf n N}
variable {h h1 h2 : ℝ → Conf n N → ℝ}

/-! ### Finite differences -/

theorem central_first {g : ℝ → ℝ} {g1 : ℝ} (hg : HasDerivAt g g1 0) :
    Tendsto (fun x => (g x - g (-x)) / (2 * x)) (𝓝[>] 0) (𝓝 g1) := by
  have h1 : HasDerivAt (fun x => g (-x)) (-g1) 0 := by
    have h2 : HasDerivAt g g1 (-0) := by simpa using hg
    have := HasDerivAt.comp (h₂ := g) (h := fun x : ℝ => -x) 0 h2 (hasDerivAt_neg 0)
    refine this.congr_deriv ?_
    ring
  have h3 := ((hg.fun_sub h1).tendsto_slope_zero_right).div_const 2
  refine (h3.congr' ?_).trans (le_of_eq ?_)
  · filter_upwards [self_mem_nhdsWithin] with x hx
    have : x ≠ 0 := (Set.mem_Ioi.1 hx).ne'
    simp only [zero_add, neg_zero, sub_self, sub_zero, smul_eq_mul]
    field_simp
  · congr 1
    ring

theorem central_second {g g1 : ℝ → ℝ} {g2 : ℝ} (hg : ∀ s ∈ Set.Ioo (-1 / 2 : ℝ) (1 / 2), HasDerivAt g (g1 s) s)
    (hg1 : HasDerivAt g1 g2 0) :
    Tendsto (fun x => (g x + g (-x) - 2 * g 0) / x ^ 2) (𝓝[>] 0) (𝓝 g2) := by
  have hr : ∀ᶠ x in 𝓝[>] (0 : ℝ), 0 < x ∧ x < 1 / 2 := by
    filter_upwards [self_mem_nhdsWithin, nhdsWithin_le_nhds (Iio_mem_nhds (show (0 : ℝ) < 1 / 2 by norm_num))]
      with x h1 h2
    exact ⟨h1, h2⟩
  have hc : ContinuousAt g 0 := (hg 0 ⟨by norm_num, by norm_num⟩).continuousAt
  refine HasDerivAt.lhopital_zero_nhdsGT (f' := fun x => g1 x - g1 (-x)) (g' := fun x => 2 * x) ?_ ?_ ?_ ?_ ?_
    (central_first hg1)
  · filter_upwards [hr] with x hx
    have h1 : HasDerivAt g (g1 x) x := hg x ⟨by linarith, hx.2⟩
    have h2 : HasDerivAt g (g1 (-x)) (-x) := hg (-x) ⟨by linarith, by linarith⟩
    have h3 := HasDerivAt.comp (h₂ := g) (h := fun x : ℝ => -x) x h2 (hasDerivAt_neg x)
    refine ((h1.fun_add h3).sub_const (2 * g 0)).congr_deriv ?_
    ring
  · filter_upwards with x
    refine ((hasDerivAt_id x).fun_pow 2).congr_deriv ?_
    simp
  · filter_upwards [hr] with x hx
    linarith
  · have h1 : Tendsto (fun x => g x + g (-x) - 2 * g 0) (𝓝 0) (𝓝 (g 0 + g (-0) - 2 * g 0)) := by
      refine ((hc.tendsto).add ?_).sub_const _
      have : ContinuousAt g (-0) := by simpa using hc
      exact this.tendsto.comp (continuous_neg.tendsto 0)
    have h2 : g 0 + g (-0) - 2 * g 0 = 0 := by
      rw [neg_zero]
      ring
    rw [h2] at h1
    exact h1.mono_left nhdsWithin_le_nhds
  · have h1 : Tendsto (fun x : ℝ => x ^ 2) (𝓝 0) (𝓝 (0 ^ 2)) := (continuous_pow 2).tendsto 0
    rw [zero_pow two_ne_zero] at h1
    exact h1.mono_left nhdsWithin_le_nhds

/-! ### The printed values -/

/-- What the code prints for a given displacement. -/
theorem yama_value (c : Fd) {db : ℝ} (hd : 0 < db) (k : ℕ) (q : Conf n N) :
    yama c kB T V V q db (k + 1)
      = some ((hOf T (fun _ => V) db q - hOf T (fun _ => V) (-db) q) / (2 * db)
          + 0.5 * (3 * (N : ℝ)) / (1 / (kB * T)),
        (hOf T (fun _ => V) db q + hOf T (fun _ => V) (-db) q - 2 * hOf T (fun _ => V) 0 q)
          / (db ^ 2 * (1 / (kB * T))) - 0.5 * (3 * (N : ℝ)) / (1 / (kB * T)) ^ 2) := by
  have h0 : scaled q √(1 + 0) = q := by
    ext x
    simp [scaled]
  have hn : ¬db < 0 := by linarith
  unfold yama yamaLoop yamaRound
  simp only [hn, decide_false, Bool.false_eq_true, false_and, if_false, abs_of_pos hd, hOf, h0,
    ← sub_eq_add_neg]
  simp only [Option.some.injEq, Prod.mk.injEq]
  constructor
  · ring
  · ring

/-- The limits of the printed values. -/
theorem yama_limit (c : Fd) (hk : 0 < kB * T) (hN : Nice (hOf T fun _ => V) h1 h2) (q : Conf n N) :
    ∃ e : ℝ → ℝ × ℝ, (∀ db, 0 < db → ∀ k, yama c kB T V V q db (k + 1) = some (e db)) ∧
      Tendsto e (𝓝[>] 0) (𝓝 (h1 0 q + 3 / 2 * N * (kB * T),
        h2 0 q * (kB * T) - 3 / 2 * N * (kB * T) ^ 2)) := by
  have h0 : (0 : ℝ) ∈ Set.Ioo (-1 / 2 : ℝ) (1 / 2) := ⟨by norm_num, by norm_num⟩
  refine ⟨_, fun db hd k => yama_value c hd k q, ?_⟩
  rw [nhds_prod_eq]
  refine Tendsto.prodMk ?_ ?_
  · have := (central_first (hN.d1 0 h0 q)).add_const (0.5 * (3 * (N : ℝ)) / (1 / (kB * T)))
    convert this using 2
    have := hk.ne'
    field_simp
    ring
  · have := ((central_second (fun s hs => hN.d1 s hs q) (hN.d2 0 h0 q)).mul_const (kB * T)).sub_const
      (0.5 * (3 * (N : ℝ)) / (1 / (kB * T)) ^ 2)
    have hk' := hk.ne'
    refine (this.congr fun x => ?_).trans (le_of_eq ?_)
    · congr 1
      rw [mul_one_div, ← div_mul]
    · congr 1
      field_simp
      ring

theorem abs_small {s : ℝ} (hs : s ∈ Set.Ioo (-1 / 2 : ℝ) (1 / 2)) : |1 + s| ≤ 2 := by
  rw [abs_le]
  constructor <;> linarith [hs.1, hs.2]

/-- The derivatives for a potential that does not depend on the temperature. -/
theorem nice_V (T : ℝ) (hV : Smooth V) : Nice (hOf T fun _ => V)
    (fun s q => 1 / ((n + 1 : ℕ) : ℝ) * along V s q + (1 + s) / ((n + 1 : ℕ) : ℝ) * along1 V s q)
    (fun s q => 0 * along V s q + 2 * (1 / ((n + 1 : ℕ) : ℝ)) * along1 V s q
      + (1 + s) / ((n + 1 : ℕ) : ℝ) * along2 V s q) := by
  have hP : (1 : ℝ) ≤ ((n + 1 : ℕ) : ℝ) := by
    push_cast
    linarith [(Nat.cast_nonneg n : (0 : ℝ) ≤ n)]
  have hP0 : (0 : ℝ) < ((n + 1 : ℕ) : ℝ) := by linarith
  have hs := (smooth_nice hV).scale (p := fun s => (1 + s) / ((n + 1 : ℕ) : ℝ))
    (p1 := fun _ => 1 / ((n + 1 : ℕ) : ℝ)) (p2 := fun _ => 0) (B := 2) (by norm_num)
    (fun s _ => ((hasDerivAt_id s).const_add 1).div_const _) (fun s _ => hasDerivAt_const _ _)
    (fun s hs => by
      refine ⟨?_, ?_, by simp⟩
      · rw [abs_div, abs_of_pos hP0, div_le_iff₀ hP0]
        have := abs_small hs
        linarith
      · rw [abs_of_pos (by positivity), div_le_iff₀ hP0]
        linarith)
  have e : (hOf T fun _ => V) = fun s q => (1 + s) / ((n + 1 : ℕ) : ℝ) * along V s q := by
    funext s q
    simp only [hOf, along]
    ring
  rw [e]
  exact hs

theorem confined_V (T : ℝ) {c D : ℝ} (hc : 0 < c) (hl : ∀ q, c * ‖q‖ ^ 2 - D ≤ V q) :
    Confined (hOf T fun _ => V) := by
  have hP0 : (0 : ℝ) < ((n + 1 : ℕ) : ℝ) := by positivity
  refine ⟨c / (18 * ((n + 1 : ℕ) : ℝ)), by positivity, 3 / 2 * |D| / ((n + 1 : ℕ) : ℝ), fun s hs q => ?_⟩
  obtain ⟨h0, hr1, hr2⟩ := sqrt_range hs
  have e1 := hl (scaled q √(1 + s))
  have e2 := scaled_ge hr1 hr2 q
  have e3 : ‖q‖ ^ 2 ≤ (3 * ‖scaled q √(1 + s)‖) ^ 2 := pow_le_pow_left₀ (norm_nonneg q) e2 2
  have e4 : c / 9 * ‖q‖ ^ 2 - |D| ≤ V (scaled q √(1 + s)) := by
    have := le_abs_self D
    nlinarith
  unfold hOf
  have e5 : c / (18 * ((n + 1 : ℕ) : ℝ)) * ‖q‖ ^ 2 - 3 / 2 * |D| / ((n + 1 : ℕ) : ℝ)
      = (c / 18 * ‖q‖ ^ 2 - 3 / 2 * |D|) / ((n + 1 : ℕ) : ℝ) := by
    field_simp
  rw [e5]
  refine div_le_div_of_nonneg_right ?_ hP0.le
  have e6 := mul_le_mul_of_nonneg_left e4 h0.le
  have e7 : 0 ≤ |D| := abs_nonneg D
  have e8 : 0 ≤ c * ‖q‖ ^ 2 := by positivity
  nlinarith [hs.1, hs.2]

/-- **The scaled-coordinates estimators give the energy and the heat capacity.**  For a smooth confining
potential the values printed at every configuration converge, as the displacement goes to zero, to
`eps` and `eps'`.  The average of the first is the energy `kB T² d ln Z / dT`; and the heat capacity,
the derivative of the energy, is `kB beta² (⟨eps²⟩ - ⟨eps⟩² - ⟨eps'⟩)`. -/
theorem scaledcoords (c : Fd) (hkB : 0 < kB) (hT : 0 < T) (hh : hbar ≠ 0) (hm : ∀ a, 0 < m a)
    (hV : Smooth V) {a D : ℝ} (ha : 0 < a) (hl : ∀ q, a * ‖q‖ ^ 2 - D ≤ V q) :
    ∃ eps eps' : Conf n N → ℝ,
      (∀ q, ∃ e : ℝ → ℝ × ℝ, (∀ db, 0 < db → ∀ k, yama c kB T V V q db (k + 1) = some (e db)) ∧
        Tendsto e (𝓝[>] 0) (𝓝 (eps q, eps' q))) ∧
      ∃ E : ℝ → ℝ, (∀ᶠ t in 𝓝 T, HasDerivAt (fun t => Real.log (partition kB hbar m (fun _ => V) t))
          (E t / (kB * t ^ 2)) t) ∧
        E T = mean (boltz kB T ((((n + 1 : ℕ) : ℝ) * kB * T / hbar) ^ 2) m V) eps ∧
        HasDerivAt E (kB * (1 / (kB * T)) ^ 2
          * (mean (boltz kB T ((((n + 1 : ℕ) : ℝ) * kB * T / hbar) ^ 2) m V) (fun q => eps q ^ 2)
            - mean (boltz kB T ((((n + 1 : ℕ) : ℝ) * kB * T / hbar) ^ 2) m V) eps ^ 2
            - mean (boltz kB T ((((n + 1 : ℕ) : ℝ) * kB * T / hbar) ^ 2) m V) eps')) T := by
  have hN := nice_V T hV
  refine ⟨_, _, fun q => yama_limit c (mul_pos hkB hT) hN q, ?_⟩
  exact energy_capacity hkB hT hh hm (fun _ => V) hN (confined_V T ha hl) _ _ (fun _ => rfl) fun _ => rfl

/-! ### The relation to the other energies -/

/-- The derivative of a potential in a direction, from its forces. -/
theorem fderiv_force (hV : Differentiable ℝ V) (hf : IsForceOf V f) (q v : Conf n N) :
    fderiv ℝ V q v = -∑ x, v x * f q x := by
  have h1 : ∀ x, fderiv ℝ V q (Pi.single x 1) = -f q x := by
    intro x
    have e1 := hf q x
    simp only [update_eq] at e1
    have e2 : HasDerivAt (fun t : ℝ => q + t • Pi.single (M := fun _ => ℝ) x 1) (Pi.single x 1) 0 := by
      have := ((hasDerivAt_id (0 : ℝ)).smul_const (Pi.single (M := fun _ => ℝ) x 1)).const_add q
      simpa using this
    have e4 : HasFDerivAt V (fderiv ℝ V q) (q + (0 : ℝ) • Pi.single (M := fun _ => ℝ) x 1) := by
      simpa using (hV q).hasFDerivAt
    exact (e4.comp_hasDerivAt (0 : ℝ) e2).unique e1
  have h2 : v = ∑ x, v x • Pi.single (M := fun _ => ℝ) x 1 := by
    ext y
    simp [Finset.sum_apply, Pi.single_apply]
  conv_lhs => rw [h2]
  rw [map_sum, ← Finset.sum_neg_distrib]
  refine Finset.sum_congr rfl fun x _ => ?_
  rw [map_smul, h1, smul_eq_mul, mul_neg]

/-- The limit of the first printed value is the potential plus the centroid virial kinetic energy. -/
theorem eps_kincv (hV : Smooth V) (hf : IsForceOf V f) (names : Fin N → String) (q : Conf n N) :
    ∃ k, kincv kB T names .all q (f q) = .ok k ∧
      1 / ((n + 1 : ℕ) : ℝ) * along V 0 q + (1 + 0) / ((n + 1 : ℕ) : ℝ) * along1 V 0 q
        + 3 / 2 * N * (kB * T) = V q / ((n + 1 : ℕ) : ℝ) + k := by
  refine ⟨_, rfl, ?_⟩
  have h0 : scaled q √(1 + 0) = q := by
    ext x
    simp [scaled]
  have hat : Sel.atoms names .all = univ := by
    ext i
    simp [Sel.atoms, Sel.takes]
  have hd : Differentiable ℝ V := hV.diff.differentiable (by norm_num)
  unfold along along1
  rw [h0, fderiv_force hd hf, hat]
  simp only [Fintype.sum_prod_type, fromC, Sel.takes, if_true, Finset.card_univ, Fintype.card_fin]
  rw [add_zero, Real.sqrt_one, show (-0.5 : ℝ) = -1 / 2 by norm_num, show (1.5 : ℝ) = 3 / 2 by norm_num]
  ring

/-- **Potential plus centroid virial kinetic energy average to the energy** `kB T² d ln Z / dT`. -/
theorem potential_kinetic (hkB : 0 < kB) (hT : 0 < T) (hh : hbar ≠ 0) (hm : ∀ a, 0 < m a)
    (hV : Smooth V) (hf : IsForceOf V f) {a D : ℝ} (ha : 0 < a) (hl : ∀ q, a * ‖q‖ ^ 2 - D ≤ V q)
    (names : Fin N → String) :
    ∃ K : Conf n N → ℝ, (∀ q, kincv kB T names .all q (f q) = .ok (K q)) ∧
      HasDerivAt (fun t => Real.log (partition kB hbar m (fun _ => V) t))
        (mean (boltz kB T ((((n + 1 : ℕ) : ℝ) * kB * T / hbar) ^ 2) m V)
          (fun q => V q / ((n + 1 : ℕ) : ℝ) + K q) / (kB * T ^ 2)) T := by
  choose K hK1 hK2 using eps_kincv (kB := kB) (T := T) hV hf names
  refine ⟨K, hK1, ?_⟩
  have hN := nice_V T hV
  obtain ⟨E, h1, h2, -⟩ := energy_capacity hkB hT hh hm (fun _ => V) hN (confined_V T ha hl)
    (fun q => V q / ((n + 1 : ℕ) : ℝ) + K q) _ (fun q => (hK2 q).symm) fun _ => rfl
  rw [← h2]
  exact h1.self_of_nhds

/-! ### The automatic displacement -/

theorem yamaRound_cases (c : Fd) (auto : Bool) (beta : ℝ) (V V' : Conf n N → ℝ) (q : Conf n N) (db : ℝ) :
    (yamaRound c auto beta V V' q db = none ∧ c.minfid < db) ∨ yamaRound c auto beta V V' q db = some (0, 0) ∨
      yamaRound c auto beta V V' q db = yamaRound c false beta V V' q db := by
  unfold yamaRound
  simp only [Bool.false_eq_true, false_and, if_false]
  split_ifs with h1 h2 h3 h4 h5 <;> simp_all

/-- With a negative argument the displacement is halved until the error is small or the smallest
displacement is reached: the loop ends after a number of rounds that does not depend on the
configuration. -/
theorem yama_ends (c : Fd) (hmin : 0 < c.minfid) (beta : ℝ) (auto : Bool) (V V' : Conf n N → ℝ)
    (q : Conf n N) (j : ℕ) {db : ℝ} (hdb : db / 2 ^ j ≤ c.minfid) (k : ℕ) :
    ∃ r, yamaLoop c auto beta V V' q (j + 1 + k) db = some r := by
  induction j generalizing db with
  | zero =>
    rw [pow_zero, div_one] at hdb
    rw [show 0 + 1 + k = k + 1 by ring, yamaLoop]
    have : yamaRound c auto beta V V' q db ≠ none := by
      rcases yamaRound_cases c auto beta V V' q db with h | h | h
      · exact absurd h.2 (not_lt.2 hdb)
      · simp [h]
      · rw [h]
        unfold yamaRound
        simp only [Bool.false_eq_true, false_and, if_false]
        simp
    cases h : yamaRound c auto beta V V' q db with
    | none => exact absurd h this
    | some r => exact ⟨r, rfl⟩
  | succ j ih =>
    rw [show j + 1 + 1 + k = (j + 1 + k) + 1 by ring, yamaLoop]
    cases h : yamaRound c auto beta V V' q db with
    | some r => exact ⟨r, rfl⟩
    | none =>
      refine ih ?_
      rw [pow_succ] at hdb
      calc db * 0.5 / 2 ^ j = db / (2 ^ j * 2) := by
            rw [show (0.5 : ℝ) = 1 / 2 by norm_num]
            field_simp
        _ ≤ c.minfid := hdb

/-- With the default parameters fifteen rounds are enough. -/
theorem yama_default_ends (V V' : Conf n N → ℝ) (q : Conf n N) :
    ∃ r, yama {} kB T V V' q (-1e-4) 15 = some r := by
  unfold yama
  exact yama_ends {} (by norm_num) _ _ V V' q 14 (by
    rw [abs_of_neg (by norm_num)]
    norm_num) 0

/-- What is printed is zero or the value for one of the halved displacements. -/
theorem yama_result (c : Fd) (auto : Bool) (V : Conf n N → ℝ) (q : Conf n N) (k : ℕ) {db : ℝ}
    (hd : 0 < db) {r : ℝ × ℝ} (h : yamaLoop c auto (1 / (kB * T)) V V q k db = some r) :
    r = (0, 0) ∨ ∃ j < k, yama c kB T V V q (db / 2 ^ j) 1 = some r := by
  induction k generalizing db with
  | zero => simp [yamaLoop] at h
  | succ k ih =>
    rw [yamaLoop] at h
    cases hr : yamaRound c auto (1 / (kB * T)) V V q db with
    | some r' =>
      rw [hr] at h
      simp only [Option.some.injEq] at h
      subst h
      have hn : ¬db < 0 := by linarith
      rcases yamaRound_cases c auto (1 / (kB * T)) V V q db with h | h | h
      · rw [h.1] at hr
        cases hr
      · rw [h] at hr
        left
        simpa using hr.symm
      · right
        refine ⟨0, Nat.succ_pos k, ?_⟩
        rw [pow_zero, div_one]
        unfold yama yamaLoop
        simp only [hn, decide_false, abs_of_pos hd]
        rw [← h, hr]
    | none =>
      rw [hr] at h
      rcases ih (by positivity) h with h' | ⟨j, hj, h'⟩
      · exact Or.inl h'
      · refine Or.inr ⟨j + 1, Nat.succ_lt_succ hj, ?_⟩
        rw [← h']
        congr 1
        rw [pow_succ, show (0.5 : ℝ) = 1 / 2 by norm_num]
        field_simp

/-! ### Examples -/

/-- The second derivative of the energy of a harmonic trap. -/
noncomputable def trapL (n N : ℕ) : Conf n N →L[ℝ] Conf n N →L[ℝ] ℝ :=
  ∑ x, (ContinuousLinearMap.proj (R := ℝ) (φ := fun _ : Fin (n + 1) × Fin N × Fin 3 => ℝ) x).smulRight
    (ContinuousLinearMap.proj (R := ℝ) (φ := fun _ : Fin (n + 1) × Fin N × Fin 3 => ℝ) x)

/-- A harmonic trap is smooth. -/
theorem trap_smooth (n N : ℕ) : Smooth fun q : Conf n N => ∑ x, 1 / 2 * q x ^ 2 := by
  have h1 : fderiv ℝ (fun q : Conf n N => ∑ x, 1 / 2 * q x ^ 2) = trapL n N := by
    funext q
    refine HasFDerivAt.fderiv ?_
    have : ∀ x, HasFDerivAt (fun q : Conf n N => 1 / 2 * q x ^ 2)
        (q x • (ContinuousLinearMap.proj (R := ℝ) (φ := fun _ : Fin (n + 1) × Fin N × Fin 3 => ℝ) x)) q := by
      intro x
      have e := ((ContinuousLinearMap.proj (R := ℝ) (φ := fun _ : Fin (n + 1) × Fin N × Fin 3 => ℝ) x).hasFDerivAt
        (x := q)).pow 2
      refine (e.const_mul (1 / 2)).congr_fderiv ?_
      ext v
      simp
      ring
    refine (HasFDerivAt.fun_sum fun x _ => this x).congr_fderiv ?_
    ext v
    simp [trapL]
  refine ⟨by fun_prop, 1 / 2 * Fintype.card (Fin (n + 1) × Fin N × Fin 3) + ‖trapL n N‖, by positivity, 2, fun q => ?_⟩
  rw [h1]
  have hq : 0 ≤ ‖q‖ := norm_nonneg q
  have hL : 0 ≤ ‖trapL n N‖ := (trapL n N).opNorm_nonneg
  have hq1 : ‖q‖ ^ 2 ≤ (1 + ‖q‖) ^ 2 := pow_le_pow_left₀ hq (by linarith) 2
  have hq2 : ‖q‖ ≤ (1 + ‖q‖) ^ 2 := by nlinarith
  have hq3 : 1 ≤ (1 + ‖q‖) ^ 2 := by nlinarith
  have hcard : (0 : ℝ) ≤ 1 / 2 * Fintype.card (Fin (n + 1) × Fin N × Fin 3) := by positivity
  refine ⟨?_, ?_, ?_⟩
  · have e : |∑ x, 1 / 2 * q x ^ 2| ≤ 1 / 2 * Fintype.card (Fin (n + 1) × Fin N × Fin 3) * ‖q‖ ^ 2 := by
      rw [abs_of_nonneg (Finset.sum_nonneg fun x _ => by positivity)]
      calc ∑ x, 1 / 2 * q x ^ 2 ≤ ∑ _x : Fin (n + 1) × Fin N × Fin 3, 1 / 2 * ‖q‖ ^ 2 :=
            Finset.sum_le_sum fun x _ => by
              have h := norm_le_pi_norm q x
              rw [Real.norm_eq_abs] at h
              have h2 : q x ^ 2 ≤ ‖q‖ ^ 2 := by
                rw [← sq_abs]
                exact pow_le_pow_left₀ (abs_nonneg _) h 2
              linarith
        _ = _ := by
          rw [Finset.sum_const, Finset.card_univ, nsmul_eq_mul]
          ring
    refine e.trans ?_
    nlinarith
  · refine ((trapL n N).le_opNorm q).trans ?_
    nlinarith
  · have : fderiv ℝ (⇑(trapL n N)) q = trapL n N := (trapL n N).fderiv
    rw [this]
    nlinarith

/-- Water-like masses in a harmonic trap. -/
example : ∃ eps eps' : Conf 3 3 → ℝ,
    (∀ q, ∃ e : ℝ → ℝ × ℝ, (∀ db, 0 < db → ∀ k, yama {} 1 1 (fun q => ∑ x, 1 / 2 * q x ^ 2)
        (fun q => ∑ x, 1 / 2 * q x ^ 2) q db (k + 1) = some (e db)) ∧
      Tendsto e (𝓝[>] 0) (𝓝 (eps q, eps' q))) ∧
    ∃ E : ℝ → ℝ, E 1 = mean (boltz 1 1 ((((3 + 1 : ℕ) : ℝ) * 1 * 1 / 1) ^ 2) ![16, 1, 1]
      fun q => ∑ x, 1 / 2 * q x ^ 2) eps := by
  obtain ⟨e, e', h1, E, -, h2, -⟩ := scaledcoords (n := 3) (N := 3) (kB := 1) (T := 1) (hbar := 1)
    (m := ![16, 1, 1]) {} one_pos one_pos one_ne_zero (fun a => by fin_cases a <;> simp) (trap_smooth 3 3)
    (a := 1 / 2) (D := 0) (by norm_num) (fun q => by
      rw [sub_zero, ← Finset.mul_sum]
      refine mul_le_mul_of_nonneg_left ?_ (by norm_num)
      have h2 : ‖q‖ ≤ √(∑ x, q x ^ 2) := by
        rw [pi_norm_le_iff_of_nonneg (Real.sqrt_nonneg _)]
        intro x
        rw [Real.norm_eq_abs]
        exact Real.abs_le_sqrt (Finset.single_le_sum (f := fun x => q x ^ 2)
          (fun y _ => sq_nonneg _) (Finset.mem_univ x))
      calc ‖q‖ ^ 2 ≤ √(∑ x, q x ^ 2) ^ 2 := pow_le_pow_left₀ (norm_nonneg q) h2 2
        _ = ∑ x, q x ^ 2 := Real.sq_sqrt (Finset.sum_nonneg fun _ _ => sq_nonneg _))
  exact ⟨e, e', h1, E, h2⟩

/-- If the error never gets small, zeros are printed. -/
theorem yama_bad (c : Fd) (beta : ℝ) (V V' : Conf n N → ℝ) (q : Conf n N)
    (hbad : ∀ db, 0 < db → db ≤ 1 → yamaRound c true beta V V' q db
      = if c.minfid < db then none else some (0, 0)) (k : ℕ) {db : ℝ} (hd : 0 < db) (hd1 : db ≤ 1)
    {r : ℝ × ℝ} (h : yamaLoop c true beta V V' q k db = some r) : r = (0, 0) := by
  induction k generalizing db with
  | zero => simp [yamaLoop] at h
  | succ k ih =>
    rw [yamaLoop, hbad db hd hd1] at h
    split at h
    · rename_i heq
      split at heq
      · cases heq
      · simp only [Option.some.injEq] at heq h
        rw [← h, ← heq]
    · refine ih (by positivity) ?_ h
      rw [show (0.5 : ℝ) = 1 / 2 by norm_num]
      linarith

/-- One particle in a double well along the first coordinate, harmonic along the others. -/
noncomputable def dwell (q : Conf 1 1) : ℝ :=
  ∑ b, ((q (b, 0, 0) ^ 2 - 1) ^ 2 + q (b, 0, 1) ^ 2 + q (b, 0, 2) ^ 2)

/-- One replica in each of the wells. -/
def dwellq : Conf 1 1 := fun x => if x.2.2 = 0 then (if x.1 = 0 then 1 else -1) else 0

theorem dwell_scaled {s : ℝ} (hs : 0 ≤ 1 + s) : dwell (scaled dwellq √(1 + s)) = 2 * s ^ 2 := by
  have h : √(1 + s) ^ 2 = 1 + s := Real.sq_sqrt hs
  have e : (√(1 + s) ^ 2 - 1) ^ 2 = s ^ 2 := by
    rw [h]
    ring
  simp [dwell, scaled, dwellq, qc, Fin.sum_univ_succ]
  rw [e]

/-- **Zeros are printed although the finite differences converge**: with one replica in each well the
first differences vanish, and the second ones are compared with them.  Every fixed displacement gives
numbers close to the true ones. -/
theorem yama_zero (hk : 0 < kB * T) :
    yama {} kB T dwell dwell dwellq (-1e-4) 15 = some (0, 0) ∧
    ∀ db, 0 < db → db ≤ 1 → ∃ y, yama {} kB T dwell dwell dwellq db 1 = some (db ^ 2 + 3 / 2 * (kB * T), y) := by
  have h0 : dwell dwellq = 0 := by
    have := dwell_scaled (s := 0) (by norm_num)
    have h0 : scaled dwellq √(1 + 0) = dwellq := by
      ext x
      simp [scaled]
    rw [h0] at this
    simpa using this
  constructor
  · obtain ⟨r, hr⟩ := yama_default_ends (kB := kB) (T := T) dwell dwell dwellq
    have hr' := hr
    unfold yama at hr
    have hdec : decide ((-1e-4 : ℝ) < 0) = true := by
      rw [decide_eq_true_eq]
      norm_num
    rw [hdec] at hr
    have : r = (0, 0) := by
      refine yama_bad {} _ dwell dwell dwellq (fun db hd hd1 => ?_) 15 ?_ ?_ hr
      · have e1 := dwell_scaled (s := db) (by linarith)
        have e2 := dwell_scaled (s := -db) (by linarith)
        rw [← sub_eq_add_neg, neg_sq] at e2
        unfold yamaRound
        rw [e1, e2, h0]
        simp only [sub_self, if_true, true_and]
        have : 2 * db ^ 2 / ((1 + 1 : ℕ) : ℝ) + 2 * db ^ 2 / ((1 + 1 : ℕ) : ℝ) - 2 * (0 / ((1 + 1 : ℕ) : ℝ)) ≠ 0 := by
          have : 0 < db ^ 2 := by positivity
          norm_num
          exact hd.ne'
        rw [if_pos this]
      · norm_num
      · rw [abs_of_neg (by norm_num)]
        norm_num
    rw [hr', this]
  · intro db hd hd1
    have hv := yama_value (kB := kB) (T := T) (V := dwell) {} hd 0 dwellq
    have e1 := dwell_scaled (s := db) (by linarith)
    have e2 := dwell_scaled (s := -db) (by linarith)
    have : (hOf T (fun _ => dwell) db dwellq - hOf T (fun _ => dwell) (-db) dwellq) / (2 * db)
          + 0.5 * (3 * ((1 : ℕ) : ℝ)) / (1 / (kB * T)) = db ^ 2 + 3 / 2 * (kB * T) := by
      simp only [hOf]
      rw [e1, e2]
      have hk' := hk.ne'
      have hd' := hd.ne'
      push_cast
      field_simp
      ring
    rw [this] at hv
    exact ⟨_, hv⟩

end

end Verif.Estim
