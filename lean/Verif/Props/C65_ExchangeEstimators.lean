import Verif.Props.C38_ExchangeForces

/-!
# C65: estimators of the bosonic exchange

The fermionic sign, the probabilities of separate and of fully joined particles and the kinetic
energy, all stated as averages over the cuttings of the particles into cycles
(`Verif.Cut.sumC`, `cuttingWeight`).
-/

namespace Verif.Exchange

open Finset Verif.Cut

/-- The sign of a permutation made of the cycles of a cutting: a cycle of `k` particles is a
product of `k - 1` exchanges. -/
def cuttingSign (bs : List (ℕ × ℕ)) : ℝ := (bs.map (fun b => (-1 : ℝ) ^ (b.2 - b.1))).prod

theorem fermiW_length (β : ℝ) (E : ℕ → ℕ → ℝ) (m : ℕ) : (fermiW β E m).length = m + 1 := by
  induction m with
  | zero => rfl
  | succ m ih => rw [fermiW, List.length_append, ih]; rfl

theorem fermiW_getD (β : ℝ) (E : ℕ → ℕ → ℝ) (m i k : ℕ) (h : i ≤ m) :
    (fermiW β E (m + k)).getD i 0 = (fermiW β E m).getD i 0 := by
  induction k with
  | zero => rfl
  | succ k ih =>
    rw [← Nat.add_assoc, fermiW, List.getD_append _ _ _ _ (by rw [fermiW_length]; omega), ih]

theorem fermiW_eq (β : ℝ) (E : ℕ → ℕ → ℝ) : ∀ m,
    (fermiW β E m).getD m 0 = W (fun u v => (-1) ^ (v - u) * gw β E u v) 0 m := by
  intro m
  induction m using Nat.strong_induction_on with
  | _ m ih =>
    cases m with
    | zero => rw [W_self]; rfl
    | succ m =>
      rw [fermiW, List.getD_append_right _ _ _ _ (by rw [fermiW_length]), fermiW_length,
        Nat.sub_self, List.getD_cons_zero, W_last' _ 0 m (Nat.zero_le _)]
      unfold fermiNext
      have h := sum_zipIdx (fun w u => (-1) ^ (m + 1 - u - 1) * w * Real.exp (-β * E u (m + 1 - 1)))
        (fermiW β E m) 0
      rw [fermiW_length] at h
      simp only [Nat.zero_add] at h
      rw [h, Finset.mul_sum, ← range_eq_Ico]
      refine sum_congr rfl (fun u hu => ?_)
      rw [mem_range] at hu
      have h2 := fermiW_getD β E u u (m - u) (le_refl _)
      rw [show u + (m - u) = m from by omega] at h2
      rw [h2, ih u (by omega), show m + 1 - u - 1 = m - u from by omega, Nat.add_sub_cancel]
      unfold gw
      ring

/-- **C65, sign.**  The fermionic sign is the average over all the cuttings of the sign of the
permutation they stand for. -/
theorem fermionic_sign_is_average (β : ℝ) (hβ : β ≠ 0) (E : ℕ → ℕ → ℝ) (N : ℕ) :
    fermiSign β E N
      = sumC (fun bs => cuttingSign bs * cuttingWeight β E bs) 0 N / sumC (cuttingWeight β E) 0 N := by
  unfold fermiSign
  rw [fermiW_eq, exp_V hβ E N N (le_refl _), W_eq_sumC, W_eq_sumC]
  congr 2
  funext bs
  unfold weight cuttingSign cuttingWeight
  rw [← List.prod_map_mul]
  congr 1

/-- **C65, bound.**  The fermionic sign is between minus one and one. -/
theorem fermionic_sign_le_one (β : ℝ) (hβ : β ≠ 0) (E : ℕ → ℕ → ℝ) (N : ℕ) :
    |fermiSign β E N| ≤ 1 := by
  unfold fermiSign
  rw [fermiW_eq, exp_V hβ E N N (le_refl _), abs_div,
    abs_of_pos (W_pos' _ (gw_pos β E) (Nat.zero_le N)),
    div_le_one (W_pos' _ (gw_pos β E) (Nat.zero_le N))]
  refine W_abs_le _ _ ?_ N N 0 (by omega) (Nat.zero_le _)
  intro u v
  rw [abs_mul, abs_pow, abs_neg, abs_one, one_pow, one_mul, abs_of_pos (gw_pos β E u v)]

/-- A single particle has sign one. -/
theorem fermionic_sign_one (β : ℝ) (hβ : β ≠ 0) (E : ℕ → ℕ → ℝ) : fermiSign β E 1 = 1 := by
  rw [fermionic_sign_is_average β hβ]
  have : cuttings 0 1 = [[(0, 0)]] := by decide +kernel
  unfold sumC
  rw [Nat.sub_zero, this]
  simp [cuttingSign, cuttingWeight, (Real.exp_pos _).ne']

/-- The cutting into single particles. -/
def singles (l : ℕ) : ℕ → List (ℕ × ℕ)
  | 0 => []
  | n + 1 => (l, l) :: singles (l + 1) n

theorem singles_isCutting (n l : ℕ) : IsCutting l (l + n) (singles l n) := by
  induction n generalizing l with
  | zero => exact IsCutting.nil l
  | succ n ih =>
    have := ih (l + 1)
    rw [show l + 1 + n = l + (n + 1) from by omega] at this
    exact IsCutting.cons (le_refl _) (by omega) this

theorem singles_weight (β : ℝ) (E : ℕ → ℕ → ℝ) (n l : ℕ) :
    cuttingWeight β E (singles l n) * ((l + n).factorial : ℝ)
      = Real.exp (-β * ∑ i ∈ range n, E (l + i) (l + i)) * (l.factorial : ℝ) := by
  induction n generalizing l with
  | zero => simp [singles, cuttingWeight]
  | succ n ih =>
    have h := ih (l + 1)
    have e : cuttingWeight β E (singles l (n + 1))
        = Real.exp (-β * E l l) / ((l + 1 : ℕ) : ℝ) * cuttingWeight β E (singles (l + 1) n) := rfl
    have e3 : ∑ i ∈ range (n + 1), E (l + i) (l + i)
        = ∑ i ∈ range n, E (l + 1 + i) (l + 1 + i) + E l l := by
      rw [sum_range_succ']
      refine congrArg₂ (· + ·) (sum_congr rfl (fun i _ => ?_)) rfl
      rw [show l + (i + 1) = l + 1 + i from by omega]
    rw [e, show l + (n + 1) = l + 1 + n from by omega, mul_assoc, h, e3, Nat.factorial_succ, mul_add,
      Real.exp_add]
    have : ((l + 1 : ℕ) : ℝ) ≠ 0 := by positivity
    rw [Nat.cast_mul]
    field_simp

/-- **C65, separate particles.**  The reported probability of separate particles is the weight of
the cutting into single particles divided by the weight of all the cuttings. -/
theorem distinct_probability (β : ℝ) (hβ : β ≠ 0) (E : ℕ → ℕ → ℝ) (N : ℕ) :
    distinctProb β E N = cuttingWeight β E (singles 0 N) / sumC (cuttingWeight β E) 0 N := by
  have hZ : sumC (cuttingWeight β E) 0 N = Real.exp (-β * V β E N N) :=
    (exp_V hβ E N N (le_refl _)).symm
  have hf : (0 : ℝ) < (N.factorial : ℝ) := by exact_mod_cast N.factorial_pos
  have hs := singles_weight β E N 0
  simp only [Nat.zero_add, Nat.factorial_zero, Nat.cast_one, mul_one] at hs
  rw [hZ, eq_div_iff (Real.exp_pos _).ne', ← mul_left_inj' hf.ne', hs]
  unfold distinctProb
  have e := Real.exp_log hf
  conv_lhs => rw [← e]
  rw [← Real.exp_add, ← Real.exp_add]
  congr 1
  rw [Real.log_exp]
  ring

/-- **C65, joined particles.**  The reported value for fully joined particles is the number of
particles times the weight of the single cycle divided by the weight of all the cuttings. -/
theorem longest_probability (β : ℝ) (hβ : β ≠ 0) (E : ℕ → ℕ → ℝ) (N : ℕ) (hN : 0 < N) :
    longestProb β E N = N * (cuttingWeight β E [(0, N - 1)] / sumC (cuttingWeight β E) 0 N) := by
  have hZ : sumC (cuttingWeight β E) 0 N = Real.exp (-β * V β E N N) :=
    (exp_V hβ E N N (le_refl _)).symm
  have hn : (N : ℝ) ≠ 0 := by positivity
  rw [hZ]
  unfold longestProb cuttingWeight
  simp only [List.map_cons, List.map_nil, List.prod_cons, List.prod_nil, mul_one]
  rw [show N - 1 + 1 = N from by omega, div_div, mul_div_assoc', mul_comm (N : ℝ) (Real.exp (-β * V β E N N)),
    mul_comm (N : ℝ), mul_div_mul_right _ _ hn, ← Real.exp_sub]
  congr 1; ring

theorem sumC_weight_pos (β : ℝ) (hβ : β ≠ 0) (E : ℕ → ℕ → ℝ) (N : ℕ) :
    0 < sumC (cuttingWeight β E) 0 N := by
  have : sumC (cuttingWeight β E) 0 N = Real.exp (-β * V β E N N) :=
    (exp_V hβ E N N (le_refl _)).symm
  rw [this]; exact Real.exp_pos _

theorem cuttingWeight_pos (β : ℝ) (E : ℕ → ℕ → ℝ) (bs : List (ℕ × ℕ)) : 0 < cuttingWeight β E bs := by
  unfold cuttingWeight
  induction bs with
  | nil => simp
  | cons b t ih =>
    rw [List.map_cons, List.prod_cons]
    have : (0 : ℝ) < ((b.2 + 1 : ℕ) : ℝ) := by positivity
    exact mul_pos (div_pos (Real.exp_pos _) this) ih

/-- Every single cutting has at most the total weight. -/
theorem cutting_share (β : ℝ) (hβ : β ≠ 0) (E : ℕ → ℕ → ℝ) (N : ℕ) (bs : List (ℕ × ℕ))
    (h : IsCutting 0 N bs) : cuttingWeight β E bs / sumC (cuttingWeight β E) 0 N ≤ 1 := by
  rw [div_le_one (sumC_weight_pos β hβ E N)]
  unfold sumC
  apply List.single_le_sum
  · intro x hx
    obtain ⟨b, -, rfl⟩ := List.mem_map.1 hx
    exact (cuttingWeight_pos β E b).le
  · refine List.mem_map.2 ⟨bs, (mem_cuttings _ _ _).2 ?_, rfl⟩
    rwa [Nat.sub_zero, Nat.zero_add]

/-- **C65, range.**  The probability of separate particles is at most one, the value for joined
particles at most the number of particles; both are positive. -/
theorem probabilities_range (β : ℝ) (hβ : β ≠ 0) (E : ℕ → ℕ → ℝ) (N : ℕ) (hN : 0 < N) :
    0 < distinctProb β E N ∧ distinctProb β E N ≤ 1
      ∧ 0 < longestProb β E N ∧ longestProb β E N ≤ N := by
  refine ⟨Real.exp_pos _, ?_, Real.exp_pos _, ?_⟩
  · rw [distinct_probability β hβ]
    refine cutting_share β hβ E N _ ?_
    have := singles_isCutting N 0
    rwa [Nat.zero_add] at this
  · rw [longest_probability β hβ E N hN]
    have h := cutting_share β hβ E N [(0, N - 1)]
      (IsCutting.cons (Nat.zero_le _) (by omega) (by
        rw [show N - 1 + 1 = N from by omega]; exact IsCutting.nil N))
    have hn : (0 : ℝ) ≤ N := by positivity
    calc (N : ℝ) * (cuttingWeight β E [(0, N - 1)] / sumC (cuttingWeight β E) 0 N)
        ≤ N * 1 := mul_le_mul_of_nonneg_left h hn
      _ = N := mul_one _

/-! ## Kinetic energy -/

theorem estV_length (β : ℝ) (E : ℕ → ℕ → ℝ) (Vs : ℕ → ℝ) (m : ℕ) : (estV β E Vs m).length = m + 1 := by
  induction m with
  | zero => rfl
  | succ m ih => rw [estV, List.length_append, ih]; rfl

theorem estV_getD (β : ℝ) (E : ℕ → ℕ → ℝ) (Vs : ℕ → ℝ) (m i k : ℕ) (h : i ≤ m) :
    (estV β E Vs (m + k)).getD i 0 = (estV β E Vs m).getD i 0 := by
  induction k with
  | zero => rfl
  | succ k ih =>
    rw [← Nat.add_assoc, estV, List.getD_append _ _ _ _ (by rw [estV_length]; omega), ih]

/-- The recurrence of the estimator multiplied by the partition sum. -/
theorem est_succ (β : ℝ) (hβ : β ≠ 0) (E : ℕ → ℕ → ℝ) (N m : ℕ) (h : m < N) :
    (estV β E (V β E N) (m + 1)).getD (m + 1) 0 * W (gw β E) 0 (m + 1)
      = ∑ u ∈ range (m + 1), ((estV β E (V β E N) u).getD u 0 * W (gw β E) 0 u * gw β E u m
          + W (gw β E) 0 u * (- E u m * gw β E u m)) := by
  rw [estV, List.getD_append_right _ _ _ _ (by rw [estV_length]), estV_length,
    Nat.sub_self, List.getD_cons_zero]
  unfold estNext
  simp only
  generalize minList _ = et
  have hs := sum_zipIdx (fun e u => (e - E u (m + 1 - 1))
    * Real.exp (-β * (E u (m + 1 - 1) + V β E N u - et))) (estV β E (V β E N) m) 0
  rw [estV_length] at hs
  simp only [Nat.zero_add] at hs
  rw [hs]
  have hm : ((m + 1 : ℕ) : ℝ) ≠ 0 := by positivity
  have e0 : Real.exp (-β * (V β E N (m + 1) - et)) = W (gw β E) 0 (m + 1) * Real.exp (β * et) := by
    rw [← exp_V hβ E N (m + 1) (by omega), ← Real.exp_add]; congr 1; ring
  have hZ := (W_pos' (gw β E) (gw_pos β E) (Nat.zero_le (m + 1))).ne'
  rw [e0, div_mul_eq_mul_div, div_eq_iff (mul_ne_zero hm (mul_ne_zero hZ (Real.exp_pos _).ne')),
    Finset.sum_mul, Finset.sum_mul]
  refine sum_congr rfl (fun u hu => ?_)
  rw [mem_range] at hu
  have h2 := estV_getD β E (V β E N) u u (m - u) (le_refl _)
  rw [show u + (m - u) = m from by omega] at h2
  have e1 : Real.exp (-β * (E u (m + 1 - 1) + V β E N u - et))
      = W (gw β E) 0 u * Real.exp (-β * E u m) * Real.exp (β * et) := by
    rw [← exp_V hβ E N u (by omega), ← Real.exp_add, ← Real.exp_add, Nat.add_sub_cancel]
    congr 1; ring
  rw [h2, e1, Nat.add_sub_cancel]
  unfold gw
  field_simp
  ring

theorem isCutting_nodup {l m : ℕ} {bs : List (ℕ × ℕ)} (h : IsCutting l m bs) : bs.Nodup := by
  induction h with
  | nil l => exact List.nodup_nil
  | cons h hv t ih =>
    refine List.nodup_cons.2 ⟨?_, ih⟩
    intro hm
    have := (isCutting_le t).2 _ hm
    simp only at this
    omega

/-- **C65, kinetic energy.**  The primitive estimator is the free value minus the average over all
the cuttings of the spring energy of their cycles, divided by the number of beads. -/
theorem kinetic_estimator (β : ℝ) (hβ : β ≠ 0) (E : ℕ → ℕ → ℝ) (N P : ℕ) :
    kineticTd β E N P = 3 / 2 * N / β
      - (sumC (fun bs => cuttingWeight β E bs * (bs.map (fun b => E b.1 b.2)).sum) 0 N
          / sumC (cuttingWeight β E) 0 N) / P := by
  have hZ := W_pos' (gw β E) (gw_pos β E) (Nat.zero_le N)
  have hZd : sumC (cuttingWeight β E) 0 N = W (gw β E) 0 N := rfl
  have hD := W_deriv (gw β E) (fun u p => - E u p * gw β E u p)
    (fun m => (estV β E (V β E N) m).getD m 0 * W (gw β E) 0 m) (by simp [estV]) N
    (fun m hm => est_succ β hβ E N m hm) N (le_refl _)
  have hB : sumC (fun bs => cuttingWeight β E bs * (bs.map (fun b => E b.1 b.2)).sum) 0 N
      = ∑ p ∈ range N, ∑ u ∈ range (p + 1), E u p * block (gw β E) N u p := by
    have e : ∑ p ∈ range N, ∑ u ∈ range (p + 1), E u p * block (gw β E) N u p
        = ∑ x ∈ (range N).sigma (fun p => range (p + 1)),
          sumC (fun bs => E x.2 x.1 * (weight (gw β E) bs * if (x.2, x.1) ∈ bs then 1 else 0)) 0 N := by
      rw [Finset.sum_sigma]
      refine sum_congr rfl (fun p hp => sum_congr rfl (fun u hu => ?_))
      rw [mem_range] at hp hu
      rw [sumC_mul, sumC_block _ N u p (by omega) hp]
    rw [e, ← sumC_sum]
    refine sumC_congr _ _ _ _ (Nat.zero_le _) (fun bs hbs => ?_)
    have h1 : ∑ x ∈ (range N).sigma (fun p => range (p + 1)),
          E x.2 x.1 * (weight (gw β E) bs * if (x.2, x.1) ∈ bs then 1 else 0)
        = weight (gw β E) bs * ∑ x ∈ (range N).sigma (fun p => range (p + 1)),
          if (x.2, x.1) ∈ bs then E x.2 x.1 else 0 := by
      rw [Finset.mul_sum]
      refine sum_congr rfl (fun x _ => ?_)
      by_cases hx : (x.2, x.1) ∈ bs
      · rw [if_pos hx, if_pos hx]; ring
      · rw [if_neg hx, if_neg hx]; ring
    rw [h1]
    congr 1
    rw [← List.sum_toFinset _ (isCutting_nodup hbs), ← Finset.sum_filter]
    refine Finset.sum_bij' (fun b _ => (⟨b.2, b.1⟩ : Σ _ : ℕ, ℕ)) (fun x _ => (x.2, x.1)) ?_ ?_ ?_ ?_ ?_
    · intro b hb
      have hb' := List.mem_toFinset.1 hb
      have := (isCutting_le hbs).2 b hb'
      rw [mem_filter, mem_sigma, mem_range, mem_range]
      exact ⟨⟨this.2.2, Nat.lt_succ_of_le this.2.1⟩, hb'⟩
    · intro x hx
      rw [mem_filter] at hx
      exact List.mem_toFinset.2 hx.2
    · intro b _; rfl
    · intro x _; rfl
    · intro b _; rfl
  have hest : (estV β E (V β E N) N).getD N 0
      = - (sumC (fun bs => cuttingWeight β E bs * (bs.map (fun b => E b.1 b.2)).sum) 0 N
          / sumC (cuttingWeight β E) 0 N) := by
    rw [hZd, hB, ← neg_div, eq_div_iff hZ.ne']
    rw [hD, ← Finset.sum_neg_distrib]
    refine sum_congr rfl (fun p _ => ?_)
    rw [← Finset.sum_neg_distrib]
    refine sum_congr rfl (fun u _ => ?_)
    unfold block; ring
  unfold kineticTd
  rw [hest]
  norm_num
  ring

/-- Two particles: the sign is the difference of the two kinds of cuttings over their sum. -/
example (E : ℕ → ℕ → ℝ) : fermiSign 1 E 2
    = (Real.exp (-1 * E 0 0) * Real.exp (-1 * E 1 1) - Real.exp (-1 * E 0 1))
      / (Real.exp (-1 * E 0 0) * Real.exp (-1 * E 1 1) + Real.exp (-1 * E 0 1)) := by
  rw [fermionic_sign_is_average 1 one_ne_zero]
  have : cuttings 0 2 = [[(0, 0), (1, 1)], [(0, 1)]] := by decide +kernel
  unfold sumC
  rw [Nat.sub_zero, this]
  simp [cuttingSign, cuttingWeight]
  have h : (0 : ℝ) < Real.exp (-E 0 0) * Real.exp (-E 1 1) + Real.exp (-E 0 1) := by positivity
  have h' : Real.exp (-E 0 0) * (Real.exp (-E 1 1) / (1 + 1)) + Real.exp (-E 0 1) / (1 + 1) ≠ 0 := by positivity
  rw [div_eq_div_iff h' h.ne']
  ring

end Verif.Exchange
