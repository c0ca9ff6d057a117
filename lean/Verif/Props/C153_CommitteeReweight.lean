import Verif.Tools.Reweight
import Mathlib.Analysis.SpecialFunctions.ExpDeriv
import Mathlib.Analysis.Calculus.Deriv.Inv
import Mathlib.Analysis.Calculus.Deriv.Add
import Mathlib.Analysis.Calculus.Deriv.Mul
import Mathlib.Algebra.BigOperators.Fin
import Mathlib.Algebra.Order.BigOperators.Group.Finset
import Mathlib.Tactic.FieldSimp
import Mathlib.Tactic.Ring
import Mathlib.Tactic.Linarith
import Mathlib.Tactic.NormNum
import Mathlib.Tactic.Positivity

/-!
# C153: averages for the members of a committee
-/

namespace Verif.Reweight

open Finset

variable {F M K : ℕ}

/-! ## Specification -/

/-- The average of an observable for potential `V`, from frames sampled with potential `V0`: every frame
counts with the ratio of the two Boltzmann factors. -/
noncomputable def boltzmann (kbT : ℝ) (V V0 o : Fin F → ℝ) : ℝ :=
  (∑ t, o t * (Real.exp (-V t / kbT) / Real.exp (-V0 t / kbT)))
    / ∑ t, Real.exp (-V t / kbT) / Real.exp (-V0 t / kbT)

/-- The covariance over frames. -/
noncomputable def cov (x y : Fin F → ℝ) : ℝ :=
  (∑ t, (x t - vmean x) * (y t - vmean y)) / F

/-! ## Direct reweighting -/

theorem rawW_eq (kbT : ℝ) (pot : Fin F → Fin M → ℝ) (t : Fin F) (i : Fin M) :
    rawW kbT pot t i = Real.exp (-pot t i / kbT) / Real.exp (-barV pot t / kbT) := by
  unfold rawW
  rw [← Real.exp_sub]
  congr 1
  ring

/-- **C153.** Direct reweighting is the ratio of Boltzmann factors between each potential and the mean of
the committee, which drove the dynamics. -/
theorem direct_right (kbT : ℝ) (pot : Fin F → Fin M → ℝ) (obs : Fin F → Fin K → ℝ) (j : Fin K)
    (i : Fin M) :
    direct kbT pot obs j i = boltzmann kbT (fun t => pot t i) (barV pot) fun t => obs t j := by
  unfold direct weight boltzmann
  simp only [rawW_eq, ← mul_div_assoc, ← sum_div]

/-- **C153.** The weights are positive and have sum one for every potential. -/
theorem weights_sum (hF : 0 < F) (kbT : ℝ) (pot : Fin F → Fin M → ℝ) (i : Fin M) :
    ∑ t, weight kbT pot t i = 1 ∧ ∀ t, 0 < weight kbT pot t i := by
  have : Nonempty (Fin F) := ⟨⟨0, hF⟩⟩
  have hp : 0 < ∑ s, rawW kbT pot s i :=
    sum_pos (fun s _ => Real.exp_pos _) univ_nonempty
  refine ⟨?_, fun t => div_pos (Real.exp_pos _) hp⟩
  unfold weight
  rw [← sum_div, div_self hp.ne']

/-- **C153.** Constants added to the potentials, another one for every potential, change nothing. -/
theorem direct_shift (kbT : ℝ) (pot : Fin F → Fin M → ℝ) (c : Fin M → ℝ) :
    weight kbT (fun t i => pot t i + c i) = weight kbT pot := by
  have e : ∀ t i, rawW kbT (fun t i => pot t i + c i) t i
      = Real.exp (-(1 / kbT) * (c i - vmean c)) * rawW kbT pot t i := by
    intro t i
    unfold rawW barV vmean
    rw [← Real.exp_add]
    congr 1
    rw [sum_add_distrib]
    ring
  funext t i
  unfold weight
  simp only [e]
  rw [← mul_sum, mul_div_mul_left _ _ (Real.exp_pos _).ne']

/-- **C153.** If all the potentials agree up to constants all the averages are the plain average. -/
theorem direct_equal (hM : 0 < M) (kbT : ℝ) (V : Fin F → ℝ) (obs : Fin F → Fin K → ℝ)
    (j : Fin K) (i : Fin M) : direct kbT (fun t _ => V t) obs j i = fmean obs j := by
  have hM' : (M : ℝ) ≠ 0 := by exact_mod_cast hM.ne'
  have e : ∀ t (i : Fin M), rawW kbT (fun t (_ : Fin M) => V t) t i = 1 := by
    intro t i
    unfold rawW barV
    simp only [sum_const, card_univ, Fintype.card_fin, nsmul_eq_mul]
    rw [mul_div_cancel_left₀ _ hM', sub_self, mul_zero, Real.exp_zero]
  unfold direct weight fmean
  simp only [e]
  simp only [sum_const, card_univ, Fintype.card_fin, nsmul_eq_mul, mul_one]
  rw [sum_div]
  exact sum_congr rfl fun t _ => by ring

/-! ## The cumulant expansion -/

theorem cov_eq (hF : 0 < F) (x y : Fin F → ℝ) :
    cov x y = (∑ t, x t * y t) / F - vmean x * vmean y := by
  have hF' : (F : ℝ) ≠ 0 := by exact_mod_cast hF.ne'
  unfold cov vmean
  have : ∀ t, (x t - (∑ i, x i) / F) * (y t - (∑ i, y i) / F)
      = x t * y t - (∑ i, x i) / F * y t - (∑ i, y i) / F * x t
        + (∑ i, x i) / F * ((∑ i, y i) / F) := fun t => by ring
  simp only [this]
  rw [sum_add_distrib, sum_sub_distrib, sum_sub_distrib, ← mul_sum, ← mul_sum, sum_const, card_univ,
    Fintype.card_fin, nsmul_eq_mul]
  field_simp
  ring

/-- **C153.** The cumulant expansion takes the covariance of the observable with the deviation of the
potential from the mean off the plain average. -/
theorem cea_cov (hF : 0 < F) (kbT : ℝ) (pot : Fin F → Fin M → ℝ) (obs : Fin F → Fin K → ℝ) (j : Fin K)
    (i : Fin M) :
    cea kbT pot obs j i = vmean (fun t => obs t j)
      - 1 / kbT * cov (fun t => obs t j) (fun t => pot t i - barV pot t) := by
  rw [cov_eq hF]
  unfold cea fmean hM vmean
  have h1 : ∑ t, obs t j * (1 / kbT * (pot t i - barV pot t))
      = 1 / kbT * ∑ t, obs t j * (pot t i - barV pot t) := by
    rw [mul_sum]; exact sum_congr rfl fun t _ => by ring
  rw [h1, ← mul_sum]
  ring

/-- **C153.** It is the expansion of direct reweighting to first order in the deviation from the mean:
`l` scales the deviation. -/
theorem cea_first_order (hF : 0 < F) (h : Fin F → ℝ) (o : Fin F → ℝ) :
    HasDerivAt (fun l : ℝ => (∑ t, o t * Real.exp (-(l * h t))) / ∑ t, Real.exp (-(l * h t)))
      (-cov o h) 0 := by
  have hF' : (F : ℝ) ≠ 0 := by exact_mod_cast hF.ne'
  have hexp : ∀ t, HasDerivAt (fun l : ℝ => Real.exp (-(l * h t))) (-(h t)) 0 := by
    intro t
    have h1 : HasDerivAt (fun l : ℝ => -(l * h t)) (-(1 * h t)) 0 :=
      ((hasDerivAt_id (0 : ℝ)).mul_const (h t)).neg
    refine h1.exp.congr_deriv ?_
    simp
  have hn : HasDerivAt (fun l : ℝ => ∑ t, o t * Real.exp (-(l * h t))) (∑ t, o t * -(h t)) 0 :=
    HasDerivAt.fun_sum fun t _ => (hexp t).const_mul (o t)
  have hd : HasDerivAt (fun l : ℝ => ∑ t, Real.exp (-(l * h t))) (∑ t, -(h t)) 0 :=
    HasDerivAt.fun_sum fun t _ => hexp t
  have h0 : ∑ t : Fin F, Real.exp (-(0 * h t)) = F := by simp
  refine (hn.div hd (by rw [h0]; exact hF')).congr_deriv ?_
  rw [h0, cov_eq hF]
  simp only [zero_mul, neg_zero, Real.exp_zero, mul_one, mul_neg, sum_neg_distrib]
  unfold vmean
  field_simp
  ring

/-- **C153.** At full deviation the function expanded is direct reweighting, at none the plain average. -/
theorem cea_expands (kbT : ℝ) (pot : Fin F → Fin M → ℝ) (obs : Fin F → Fin K → ℝ) (j : Fin K)
    (i : Fin M) :
    direct kbT pot obs j i = (∑ t, obs t j * Real.exp (-(1 * hM kbT pot t i)))
      / ∑ t, Real.exp (-(1 * hM kbT pot t i)) := by
  unfold direct weight rawW hM
  simp only [one_mul, ← mul_div_assoc, ← sum_div, neg_mul]

/-- **C153.** The mean over the committee, which is printed as the result, is the plain average. -/
theorem cea_mean (hM' : 0 < M) (kbT : ℝ) (pot : Fin F → Fin M → ℝ)
    (obs : Fin F → Fin K → ℝ) (j : Fin K) :
    vmean (fun i => cea kbT pot obs j i) = fmean obs j := by
  have hM0 : (M : ℝ) ≠ 0 := by exact_mod_cast hM'.ne'
  have hz : ∀ t, ∑ i, hM kbT pot t i = 0 := by
    intro t
    unfold hM barV
    rw [← mul_sum, sum_sub_distrib, sum_const, card_univ, Fintype.card_fin, nsmul_eq_mul,
      mul_div_cancel₀ _ hM0, sub_self, mul_zero]
  have h1 : ∑ i, (∑ t, obs t j * hM kbT pot t i) / F = 0 := by
    rw [← sum_div, sum_comm]
    simp only [← mul_sum, hz, mul_zero, sum_const_zero, zero_div]
  have h2 : ∑ i, fmean (hM kbT pot) i = 0 := by
    unfold fmean
    rw [← sum_div, sum_comm]
    simp only [hz, sum_const_zero, zero_div]
  unfold vmean cea
  rw [sum_add_distrib, sum_sub_distrib, h1, ← mul_sum, h2, sum_const, card_univ, Fintype.card_fin,
    nsmul_eq_mul]
  field_simp
  ring

/-! ## Several models of the observable -/

/-- Specification: the uncertainty due to the potentials is the spread over potentials of the average
of every observable, averaged over observables. -/
noncomputable def spreadV (kbT : ℝ) (pot : Fin F → Fin M → ℝ) (obs : Fin F → Fin K → ℝ) : ℝ :=
  vmean fun j => var 1 fun i => cea kbT pot obs j i

/-- **C153, negated.** What is computed is the spread over observables of the averages of the
potentials. -/
theorem multi_swapped (kbT : ℝ) (pot : Fin F → Fin M → ℝ) (obs : Fin F → Fin K → ℝ) :
    (multi kbT pot obs).aV = spreadV kbT obs pot := rfl

/-- **C153, negated.** If the models of the observable agree, the uncertainty due to the potentials is
reported as zero, whatever the potentials. -/
theorem multi_agree (hF : 0 < F) (hK : 0 < K) (kbT : ℝ) (pot : Fin F → Fin M → ℝ) (o : Fin F → ℝ) :
    (multi kbT pot fun t (_ : Fin K) => o t).aV = 0 := by
  have hK0 : (K : ℝ) ≠ 0 := by exact_mod_cast hK.ne'
  have hv : ∀ j, var 1 (fun i : Fin K => cea kbT (fun t (_ : Fin K) => o t) pot j i) = 0 := by
    intro j
    have hc : ∀ i : Fin K, cea kbT (fun t (_ : Fin K) => o t) pot j i = vmean fun t => pot t j := by
      intro i
      rw [cea_cov hF]
      have : ∀ t, o t - barV (fun t (_ : Fin K) => o t) t = 0 := by
        intro t
        unfold barV
        rw [sum_const, card_univ, Fintype.card_fin, nsmul_eq_mul, mul_div_cancel_left₀ _ hK0,
          sub_self]
      simp only [this]
      rw [cov_eq hF]
      simp [vmean]
    unfold var
    simp only [hc]
    unfold vmean
    simp only [sum_const, card_univ, Fintype.card_fin, nsmul_eq_mul]
    rw [mul_div_cancel_left₀ _ hK0]
    simp
  unfold multi
  dsimp only
  unfold vmean
  simp only [hv, sum_const_zero, zero_div]

/-- **C153, negated.** But it is not: two frames, two potentials, two equal observables. -/
theorem multi_wrong : ∃ (pot obs : Fin 2 → Fin 2 → ℝ), (multi 1 pot obs).aV = 0 ∧
    spreadV 1 pot obs = 1 / 2 := by
  refine ⟨fun t i => if t = 1 ∧ i = 1 then 4 else 0, fun t _ => if t = 1 then 1 else 0, ?_, ?_⟩
  · exact multi_agree (by norm_num) (by norm_num) 1 _ _
  · simp only [spreadV, vmean, var, cea, fmean, hM, barV, Fin.sum_univ_two]
    norm_num

/-! ## The frames -/

/-- **C153.** With a positive stride the frames compared are number `0, n, 2n, …` of the potentials. -/
theorem every_spec {α : Type} (n : ℕ) (hn : 0 < n) (l : List α) (k : ℕ) (hk : k * n < l.length) :
    (every n l)[k]? = l[k * n]? := by
  have hlen : k < (l.length + n - 1) / n := by
    rw [Nat.lt_div_iff_mul_lt hn]
    omega
  have hall : every n l = (List.range ((l.length + n - 1) / n)).pmap
      (fun k (h : k * n < l.length) => l[k * n]) (by
        intro a ha
        rw [List.mem_range, Nat.lt_div_iff_mul_lt hn] at ha
        omega) := by
    unfold every
    have : ∀ (m : List ℕ) (H : ∀ a ∈ m, a * n < l.length),
        m.filterMap (fun k => l[k * n]?) = m.pmap (fun k (h : k * n < l.length) => l[k * n]) H := by
      intro m
      induction m with
      | nil => intro _; rfl
      | cons a m ih =>
        intro H
        have ha := H a List.mem_cons_self
        rw [List.filterMap_cons, List.getElem?_eq_getElem ha, List.pmap_cons]
        simp only
        rw [ih fun b hb => H b (List.mem_cons_of_mem _ hb)]
    exact this _ _
  rw [hall, List.getElem?_eq_getElem (by simpa using hlen), List.getElem?_eq_getElem hk]
  simp

/-- **C153, negated.** A negative stride, for observables printed more often than potentials, always
fails. -/
theorem negative_stride {α β : Type} (pot : List α) (obs : List β) {s : ℤ} (hs : s < 0) :
    frames pot obs s = .error .unbound := by
  unfold frames
  rw [if_neg (by omega), if_pos hs]

/-- The variance of all numbers of a table. -/
noncomputable def tableVar (x : Fin M → Fin K → ℝ) : ℝ :=
  (∑ j, ∑ k, (x j k - (∑ j, ∑ k, x j k) / (M * K)) ^ 2) / (M * K - 1)

/-- **C153.** The total is the variance of all the numbers of a table with a row for every potential and a column
for every observable, if the two parts are the variance of the means and the mean of the variances of its columns. -/
theorem total_is_variance (hM : 1 < M) (hK : 1 < K) (kbT : ℝ) (pot : Fin F → Fin M → ℝ) (obs : Fin F → Fin K → ℝ)
    (x : Fin M → Fin K → ℝ) (h1 : (multi kbT pot obs).a = var 1 fun k => vmean fun j => x j k)
    (h2 : (multi kbT pot obs).aV = vmean fun k => var 1 fun j => x j k) :
    (multi kbT pot obs).total = tableVar x := by
  have e : (multi kbT pot obs).total = (M * (K - 1) : ℝ) / (M * K - 1) * (multi kbT pot obs).a
      + ((M - 1) * K : ℝ) / (M * K - 1) * (multi kbT pot obs).aV := rfl
  have hM' : (1 : ℝ) < M := by exact_mod_cast hM
  have hK' : (1 : ℝ) < K := by exact_mod_cast hK
  have hMK : (M * K - 1 : ℝ) ≠ 0 := by nlinarith
  have hM1 : (M - 1 : ℝ) ≠ 0 := by linarith
  have hK1 : (K - 1 : ℝ) ≠ 0 := by linarith
  have hM0 : (M : ℝ) ≠ 0 := by linarith
  have hK0 : (K : ℝ) ≠ 0 := by linarith
  rw [e, h1, h2, tableVar]
  set c : Fin K → ℝ := fun k => vmean fun j => x j k with hc
  set μ : ℝ := (∑ j, ∑ k, x j k) / (M * K) with hμ
  have hcs : ∀ k, ∑ j, x j k = M * c k := by
    intro k
    simp only [hc, vmean]
    field_simp
  have hμc : vmean c = μ := by
    have : ∑ j, ∑ k, x j k = M * ∑ k, c k := by
      rw [Finset.sum_comm, Finset.mul_sum]
      exact Finset.sum_congr rfl fun k _ => hcs k
    rw [hμ, this, vmean]
    field_simp
  have hv : ∀ k, (M - 1 : ℝ) * var 1 (fun j => x j k) = ∑ j, (x j k - c k) ^ 2 := by
    intro k
    unfold var
    field_simp
    rfl
  have ha : (K - 1 : ℝ) * var 1 c = ∑ k, (c k - μ) ^ 2 := by
    unfold var
    rw [hμc]
    field_simp
  have hb : (M - 1 : ℝ) * (K * vmean fun k => var 1 fun j => x j k) = ∑ k, ∑ j, (x j k - c k) ^ 2 := by
    unfold vmean
    rw [mul_div_cancel₀ _ hK0, Finset.mul_sum]
    exact Finset.sum_congr rfl fun k _ => hv k
  have hs : ∑ j, ∑ k, (x j k - μ) ^ 2 = M * ∑ k, (c k - μ) ^ 2 + ∑ k, ∑ j, (x j k - c k) ^ 2 := by
    rw [Finset.sum_comm, Finset.mul_sum, ← Finset.sum_add_distrib]
    refine Finset.sum_congr rfl fun k _ => ?_
    have h3 : ∀ j, (x j k - μ) ^ 2 = (x j k - c k) ^ 2 + (2 * (c k - μ) * x j k + (μ ^ 2 - c k ^ 2)) := by
      intro j
      ring
    simp only [h3, Finset.sum_add_distrib, ← Finset.mul_sum, hcs, Finset.sum_const, Finset.card_univ, Fintype.card_fin, nsmul_eq_mul]
    ring
  rw [hs, ← ha, ← hb]
  field_simp

/-- **C153.** Observables for another number of frames are refused. -/
theorem other_frames {α β : Type} (pot : List α) (obs : List β) {s : ℤ} (hs : 0 < s)
    (h : (every s.toNat pot).length ≠ obs.length) : frames pot obs s = .error .frames := by
  unfold frames
  rw [if_pos hs]
  exact if_neg h

/-- The potentials of six frames with observables of every second. -/
example : frames [10, 11, 12, 13, 14, 15] [0, 2, 4] 2 = .ok ([10, 12, 14], [0, 2, 4]) := rfl

end Verif.Reweight
