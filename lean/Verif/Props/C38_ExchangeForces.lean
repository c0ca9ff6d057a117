import Verif.Phys.CutProb
import Verif.Props.C37_Exchange
import Mathlib.Analysis.Calculus.Deriv.Add
import Mathlib.Analysis.Calculus.Deriv.Mul
import Mathlib.Analysis.Calculus.Deriv.Pow
import Mathlib.Analysis.SpecialFunctions.ExpDeriv
import Mathlib.Analysis.SpecialFunctions.Log.Deriv

/-!
# C38: connection probabilities and forces of the bosonic exchange

Small specification: `Verif.Cut.follows bs l u` says that in the cutting `bs` the particle `l` is
followed by the particle `u`; the gradient is stated through the derivative along every line of
positions.
-/

namespace Verif.Exchange

open Finset Verif.Cut

section
variable {β : ℝ} (hβ : β ≠ 0) (E : ℕ → ℕ → ℝ) (N : ℕ)
include hβ

theorem prob_back (l u : ℕ) (hu : u ≤ l) (hl : l < N) :
    prob β E N l u = block (gw β E) N u l / W (gw β E) 0 N := by
  unfold prob block
  rw [if_pos hu, ← exp_V hβ E N u (by omega), ← exp_RV hβ E N (l + 1) (by omega) (by omega),
    ← exp_V hβ E N N (le_refl _)]
  unfold gw
  rw [eq_div_iff (Real.exp_pos _).ne', div_eq_inv_mul]
  have e : Real.exp (-β * (V β E N u + E u l + RV β E N (l + 1) - V β E N N))
        * Real.exp (-β * V β E N N)
      = Real.exp (-β * V β E N u) * Real.exp (-β * E u l) * Real.exp (-β * RV β E N (l + 1)) := by
    rw [← Real.exp_add, ← Real.exp_add, ← Real.exp_add]; congr 1; ring
  rw [mul_assoc, e]; ring

theorem prob_next (l : ℕ) (hl : l < N) :
    prob β E N l (l + 1)
      = (∑ u ∈ range (l + 1), ∑ p ∈ Ico (l + 1) N, block (gw β E) N u p) / W (gw β E) 0 N := by
  have hpos := W_pos' (gw β E) (gw_pos β E) (Nat.zero_le N)
  rw [block_over _ N l hl, sub_div, div_self hpos.ne']
  unfold prob
  rw [if_neg (by omega), if_pos rfl, ← exp_V hβ E N (l + 1) (by omega),
    ← exp_RV hβ E N (l + 1) (by omega) (by omega), ← exp_V hβ E N N (le_refl _), ← Real.exp_add,
    ← Real.exp_sub]
  congr 2; ring

theorem prob_far (l u : ℕ) (h : l + 1 < u) : prob β E N l u = 0 := by
  unfold prob
  rw [if_neg (by omega), if_neg (by omega)]

/-- **C38, meaning.**  For every number of particles and every temperature, the connection
probability is the total weight of the cuttings in which `l` is followed by `u`, divided by the
total weight of all the cuttings. -/
theorem connection_probability (l u : ℕ) (hl : l < N) :
    prob β E N l u
      = sumC (fun bs => cuttingWeight β E bs * if follows bs l u = true then 1 else 0) 0 N
        / sumC (cuttingWeight β E) 0 N := by
  have e0 : cuttingWeight β E = weight (gw β E) := rfl
  rw [e0, ← W_eq_sumC]
  rcases Nat.lt_trichotomy u (l + 1) with h | h | h
  · rw [prob_back hβ E N l u (by omega) hl, sumC_follows_back _ N l u (by omega) hl]
  · subst h
    rw [prob_next hβ E N l hl, sumC_follows_next _ N l hl]
  · rw [prob_far hβ E N l u h]
    have : sumC (fun bs => weight (gw β E) bs * if follows bs l u = true then 1 else 0) 0 N = 0 := by
      refine Eq.trans (sumC_congr _ (fun _ => 0) _ _ (by omega) (fun bs hbs => ?_)) (sumC_zero _ _)
      rw [if_neg, mul_zero]
      intro hf
      obtain ⟨b, hb, hc⟩ := (follows_iff _ _ _).1 hf
      have := (isCutting_le hbs).2 b hb
      rcases hc with hc | hc <;> omega
    rw [this, zero_div]

/-- **C38, non-negative.** -/
theorem prob_nonneg (l u : ℕ) (hl : l < N) : 0 ≤ prob β E N l u := by
  have hpos := W_pos' (gw β E) (gw_pos β E) (Nat.zero_le N)
  have hb : ∀ u p, u ≤ N → p < N → 0 ≤ block (gw β E) N u p := by
    intro u p hu hp
    exact mul_nonneg (mul_nonneg (W_pos' _ (gw_pos β E) (Nat.zero_le _)).le (gw_pos β E _ _).le)
      (W_pos' _ (gw_pos β E) (by omega)).le
  rcases Nat.lt_trichotomy u (l + 1) with h | h | h
  · rw [prob_back hβ E N l u (by omega) hl]
    exact div_nonneg (hb _ _ (by omega) hl) hpos.le
  · subst h
    rw [prob_next hβ E N l hl]
    refine div_nonneg (Finset.sum_nonneg (fun u hu => Finset.sum_nonneg (fun p hp => ?_))) hpos.le
    rw [mem_range] at hu
    rw [mem_Ico] at hp
    exact hb _ _ (by omega) (by omega)
  · rw [prob_far hβ E N l u h]

/-- **C38, successors.**  For every particle, the probabilities of its successors add up to one. -/
theorem prob_sum_successors (l : ℕ) (hl : l < N) : ∑ u ∈ range N, prob β E N l u = 1 := by
  have hpos := W_pos' (gw β E) (gw_pos β E) (Nat.zero_le N)
  have hsplit : ∑ u ∈ range N, prob β E N l u
      = ∑ u ∈ range (l + 1), prob β E N l u + ∑ u ∈ Ico (l + 1) N, prob β E N l u := by
    rw [range_eq_Ico, range_eq_Ico, sum_Ico_consecutive _ (by omega) (by omega)]
  have h1 : ∑ u ∈ range (l + 1), prob β E N l u
      = W (gw β E) 0 (l + 1) * W (gw β E) (l + 1) N / W (gw β E) 0 N := by
    rw [← block_end, Finset.sum_div]
    refine sum_congr rfl (fun u hu => prob_back hβ E N l u ?_ hl)
    rw [mem_range] at hu; omega
  have h2 : ∑ u ∈ Ico (l + 1) N, prob β E N l u
      = 1 - W (gw β E) 0 (l + 1) * W (gw β E) (l + 1) N / W (gw β E) 0 N := by
    rcases Nat.eq_or_lt_of_le (Nat.succ_le_of_lt hl) with h | h
    · have h' : l + 1 = N := h
      rw [h', Ico_self, sum_empty, W_self, mul_one, div_self hpos.ne', sub_self]
    · have h' : l + 1 < N := h
      rw [sum_eq_sum_Ico_succ_bot h', prob_next hβ E N l hl, block_over _ N l hl, sub_div,
        div_self hpos.ne']
      rw [Finset.sum_eq_zero, add_zero]
      intro u hu
      rw [mem_Ico] at hu
      exact prob_far hβ E N l u (by omega)
  rw [hsplit, h1, h2]; ring

/-- **C38, predecessors.**  For every particle, the probabilities of its predecessors add up to
one. -/
theorem prob_sum_predecessors (u : ℕ) (hu : u < N) : ∑ l ∈ range N, prob β E N l u = 1 := by
  have hpos := W_pos' (gw β E) (gw_pos β E) (Nat.zero_le N)
  have hsplit : ∑ l ∈ range N, prob β E N l u
      = ∑ l ∈ range u, prob β E N l u + ∑ l ∈ Ico u N, prob β E N l u := by
    rw [range_eq_Ico, range_eq_Ico, sum_Ico_consecutive _ (by omega) (by omega)]
  have h2 : ∑ l ∈ Ico u N, prob β E N l u
      = W (gw β E) 0 u * W (gw β E) u N / W (gw β E) 0 N := by
    rw [← block_start _ N u hu, Finset.sum_div]
    refine sum_congr rfl (fun l hl => ?_)
    rw [mem_Ico] at hl
    exact prob_back hβ E N l u (by omega) (by omega)
  have h1 : ∑ l ∈ range u, prob β E N l u
      = 1 - W (gw β E) 0 u * W (gw β E) u N / W (gw β E) 0 N := by
    cases u with
    | zero => rw [range_zero, sum_empty, W_self, one_mul, div_self hpos.ne', sub_self]
    | succ u =>
      rw [sum_range_succ, prob_next hβ E N u (by omega), block_over _ N u (by omega), sub_div,
        div_self hpos.ne', Finset.sum_eq_zero, zero_add]
      intro l hl
      rw [mem_range] at hl
      exact prob_far hβ E N l (u + 1) (by omega)
  rw [hsplit, h1, h2]; ring

end

/-! ## Forces -/

/-- Half the derivative of the squared links inside a particle along `d`. -/
def dIntra (P : ℕ) (q d : Pos) (l : ℕ) : ℝ :=
  ∑ j ∈ range (P - 1), ∑ c, diffIntra q j l c * diffIntra d j l c

/-- Half the derivative of the squared link between particles along `d`. -/
def dInter (P : ℕ) (q d : Pos) (l m : ℕ) : ℝ := ∑ c, diffInter P q l m c * diffInter P d l m c

/-- The positions `q` moved by `t` times `d`. -/
def move (q d : Pos) (t : ℝ) : Pos := fun j l c => q j l c + t * d j l c

theorem hasDerivAt_sq (a b : ℝ) : HasDerivAt (fun t : ℝ => (a + t * b) ^ 2) (2 * (a * b)) 0 := by
  have h : HasDerivAt (fun t : ℝ => a + t * b) b 0 := by
    have := ((hasDerivAt_id (0 : ℝ)).mul_const b).const_add a
    simpa using this
  have h2 := h.pow 2
  refine HasDerivAt.congr_deriv h2 ?_
  simp; ring

theorem hasDerivAt_intra (P : ℕ) (q d : Pos) (l : ℕ) :
    HasDerivAt (fun t => intra P (move q d t) l) (2 * dIntra P q d l) 0 := by
  unfold intra dIntra
  rw [Finset.mul_sum]
  refine HasDerivAt.fun_sum (fun j _ => ?_)
  rw [Finset.mul_sum]
  refine HasDerivAt.fun_sum (fun c _ => ?_)
  have := hasDerivAt_sq (diffIntra q j l c) (diffIntra d j l c)
  refine HasDerivAt.congr_of_eventuallyEq this (Filter.Eventually.of_forall (fun t => ?_))
  unfold diffIntra move
  ring

theorem hasDerivAt_inter (P : ℕ) (q d : Pos) (l m : ℕ) :
    HasDerivAt (fun t => inter P (move q d t) l m) (2 * dInter P q d l m) 0 := by
  unfold inter dInter
  rw [Finset.mul_sum]
  refine HasDerivAt.fun_sum (fun c _ => ?_)
  have := hasDerivAt_sq (diffInter P q l m c) (diffInter P d l m c)
  refine HasDerivAt.congr_of_eventuallyEq this (Filter.Eventually.of_forall (fun t => ?_))
  unfold diffInter move
  ring

/-- The derivative of the energy of a cycle, by links. -/
noncomputable def dCycle (P : ℕ) (q d : Pos) (pre : ℝ) (u v : ℕ) : ℝ :=
  2 * pre * (∑ i ∈ Ico u (v + 1), dIntra P q d i + ∑ i ∈ Ico u v, dInter P q d (i + 1) i
    + dInter P q d u v)

theorem hasDerivAt_cycle (P : ℕ) (q d : Pos) (pre : ℝ) (u v : ℕ) (h : u ≤ v) :
    HasDerivAt (fun t => cycleE P (move q d t) pre u v) (dCycle P q d pre u v) 0 := by
  obtain ⟨k, rfl⟩ := Nat.exists_eq_add_of_le h
  have e : (fun t => cycleE P (move q d t) pre u (u + k)) = fun t =>
      pre * (∑ i ∈ range (k + 1), intra P (move q d t) (u + i)
      + ∑ i ∈ range k, inter P (move q d t) (u + i + 1) (u + i) + inter P (move q d t) u (u + k)) := by
    funext t
    unfold cycleE
    rw [if_pos h, cycle_closed, show u + k - u = k from by omega]
  rw [e]
  have h1 := HasDerivAt.fun_sum (u := range (k + 1))
    (fun i _ => hasDerivAt_intra P q d (u + i))
  have h2 := HasDerivAt.fun_sum (u := range k)
    (fun i _ => hasDerivAt_inter P q d (u + i + 1) (u + i))
  have h3 := hasDerivAt_inter P q d u (u + k)
  refine HasDerivAt.congr_deriv (((h1.add h2).add h3).const_mul pre) ?_
  unfold dCycle
  rw [sum_Ico_eq_sum_range, sum_Ico_eq_sum_range, show u + k + 1 - u = k + 1 from by omega,
    show u + k - u = k from by omega, ← Finset.mul_sum, ← Finset.mul_sum]
  ring

theorem move_zero (q d : Pos) : move q d 0 = q := by
  funext j l c; unfold move; ring

section
variable {β : ℝ} (hβ : β ≠ 0) (P N : ℕ) (q d : Pos) (pre : ℝ)

theorem hasDerivAt_gw (u v : ℕ) (h : u ≤ v) :
    HasDerivAt (fun t => gw β (cycleE P (move q d t) pre) u v)
      (-β * dCycle P q d pre u v * gw β (cycleE P q pre) u v) 0 := by
  unfold gw
  have h1 := ((hasDerivAt_cycle P q d pre u v h).const_mul (-β)).exp
  refine HasDerivAt.congr_deriv (h1.div_const _) ?_
  rw [move_zero]
  ring

theorem differentiable_W : ∀ m,
    DifferentiableAt ℝ (fun t => W (gw β (cycleE P (move q d t) pre)) 0 m) 0 := by
  intro m
  induction m using Nat.strong_induction_on with
  | _ m ih =>
    cases m with
    | zero => simp only [W_self]; exact differentiableAt_const _
    | succ m =>
      have e : (fun t => W (gw β (cycleE P (move q d t) pre)) 0 (m + 1)) = fun t =>
          ∑ u ∈ Ico 0 (m + 1), W (gw β (cycleE P (move q d t) pre)) 0 u
            * gw β (cycleE P (move q d t) pre) u m := by
        funext t; rw [W_last' _ 0 m (Nat.zero_le _)]
      rw [e]
      refine DifferentiableAt.fun_sum (fun u hu => ?_)
      rw [mem_Ico] at hu
      exact (ih u hu.2).mul (hasDerivAt_gw P q d pre u m (by omega)).differentiableAt

/-- Derivative of the partition sum along `d`. -/
theorem deriv_W : ∀ m ≤ N, deriv (fun t => W (gw β (cycleE P (move q d t) pre)) 0 m) 0
    = ∑ p ∈ range m, ∑ u ∈ range (p + 1), W (gw β (cycleE P q pre)) 0 u
      * (-β * dCycle P q d pre u p * gw β (cycleE P q pre) u p)
      * W (gw β (cycleE P q pre)) (p + 1) m := by
  refine W_deriv (gw β (cycleE P q pre))
    (fun u p => -β * dCycle P q d pre u p * gw β (cycleE P q pre) u p) _ ?_ N ?_
  · simp only [W_self]; exact deriv_const _ _
  · intro m _
    have e : (fun t => W (gw β (cycleE P (move q d t) pre)) 0 (m + 1)) = fun t =>
        ∑ u ∈ range (m + 1), W (gw β (cycleE P (move q d t) pre)) 0 u
          * gw β (cycleE P (move q d t) pre) u m := by
      funext t; rw [W_last' _ 0 m (Nat.zero_le _), range_eq_Ico]
    rw [e]
    have h1 := HasDerivAt.fun_sum (u := range (m + 1)) (fun u hu =>
      (differentiable_W (β := β) P q d pre u).hasDerivAt.mul
        (hasDerivAt_gw (β := β) P q d pre u m (by rw [mem_range] at hu; omega)))
    have h2 := h1.deriv
    simp only [move_zero, Pi.mul_apply] at h2
    exact h2

include hβ

/-- The derivative of the exchange potential in terms of the connection probabilities. -/
theorem hasDerivAt_V :
    HasDerivAt (fun t => V β (cycleE P (move q d t) pre) N N)
      (2 * pre * (∑ i ∈ range N, dIntra P q d i
        + ∑ l ∈ range N, ∑ u ∈ range N, prob β (cycleE P q pre) N l u * dInter P q d u l)) 0 := by
  have hZ : ∀ E, 0 < W (gw β E) 0 N := fun E => W_pos' _ (gw_pos β E) (Nat.zero_le N)
  have e : (fun t => V β (cycleE P (move q d t) pre) N N)
      = fun t => - Real.log (W (gw β (cycleE P (move q d t) pre)) 0 N) / β := by
    funext t
    rw [← exp_V hβ _ N N (le_refl _), Real.log_exp]
    field_simp
  rw [e]
  have h1 := (differentiable_W (β := β) P q d pre N).hasDerivAt
  have h2 := ((h1.log (hZ _).ne').neg).div_const β
  refine HasDerivAt.congr_deriv h2 ?_
  rw [move_zero, deriv_W P N q d pre N (le_refl _)]
  -- pull the constants out
  set g := gw β (cycleE P q pre) with hg
  set Z := W g 0 N with hZd
  have hZ0 : Z ≠ 0 := (hZ _).ne'
  have s1 : ∑ p ∈ range N, ∑ u ∈ range (p + 1),
        W g 0 u * (-β * dCycle P q d pre u p * g u p) * W g (p + 1) N
      = -β * ∑ p ∈ range N, ∑ u ∈ range (p + 1), block g N u p * dCycle P q d pre u p := by
    rw [Finset.mul_sum]
    refine sum_congr rfl (fun p _ => ?_)
    rw [Finset.mul_sum]
    refine sum_congr rfl (fun u _ => ?_)
    unfold block; ring
  rw [s1]
  have s2 : -(-β * ∑ p ∈ range N, ∑ u ∈ range (p + 1), block g N u p * dCycle P q d pre u p) / Z / β
      = (∑ p ∈ range N, ∑ u ∈ range (p + 1), block g N u p * dCycle P q d pre u p) / Z := by
    field_simp
  rw [neg_div] at s2
  rw [s2, div_eq_iff hZ0]
  -- the three kinds of links
  have a1 : ∑ p ∈ range N, ∑ u ∈ range (p + 1), block g N u p * ∑ i ∈ Ico u (p + 1), dIntra P q d i
      = Z * ∑ i ∈ range N, dIntra P q d i := by
    simp only [Finset.mul_sum]
    have step : ∀ p ∈ range N, ∑ u ∈ range (p + 1), ∑ i ∈ Ico u (p + 1), block g N u p * dIntra P q d i
        = ∑ i ∈ range (p + 1), ∑ u ∈ range (i + 1), block g N u p * dIntra P q d i := by
      intro p _
      apply Finset.sum_comm'
      intro x y; simp only [mem_range, mem_Ico]; omega
    rw [sum_congr rfl step]
    have step2 : ∑ p ∈ range N, ∑ i ∈ range (p + 1), ∑ u ∈ range (i + 1), block g N u p * dIntra P q d i
        = ∑ i ∈ range N, ∑ p ∈ Ico i N, ∑ u ∈ range (i + 1), block g N u p * dIntra P q d i := by
      apply Finset.sum_comm'
      intro x y; simp only [mem_range, mem_Ico]; omega
    rw [step2]
    refine sum_congr rfl (fun i hi => ?_)
    rw [mem_range] at hi
    rw [Finset.sum_comm, hZd, ← block_in g N i hi, Finset.sum_mul]
    refine sum_congr rfl (fun u _ => ?_)
    rw [Finset.sum_mul]
  have a2 : ∑ p ∈ range N, ∑ u ∈ range (p + 1), block g N u p * ∑ i ∈ Ico u p, dInter P q d (i + 1) i
      = ∑ i ∈ range N, (∑ u ∈ range (i + 1), ∑ p ∈ Ico (i + 1) N, block g N u p)
          * dInter P q d (i + 1) i := by
    simp only [Finset.mul_sum]
    have step : ∀ p ∈ range N, ∑ u ∈ range (p + 1), ∑ i ∈ Ico u p, block g N u p * dInter P q d (i + 1) i
        = ∑ i ∈ range p, ∑ u ∈ range (i + 1), block g N u p * dInter P q d (i + 1) i := by
      intro p _
      apply Finset.sum_comm'
      intro x y; simp only [mem_range, mem_Ico]; omega
    rw [sum_congr rfl step]
    have step2 : ∑ p ∈ range N, ∑ i ∈ range p, ∑ u ∈ range (i + 1), block g N u p * dInter P q d (i + 1) i
        = ∑ i ∈ range N, ∑ p ∈ Ico (i + 1) N, ∑ u ∈ range (i + 1), block g N u p * dInter P q d (i + 1) i := by
      apply Finset.sum_comm'
      intro x y; simp only [mem_range, mem_Ico]; omega
    rw [step2]
    refine sum_congr rfl (fun i hi => ?_)
    rw [Finset.sum_comm, Finset.sum_mul]
    refine sum_congr rfl (fun u _ => ?_)
    rw [Finset.sum_mul]
  have a3 : Z * ∑ l ∈ range N, ∑ u ∈ range N, prob β (cycleE P q pre) N l u * dInter P q d u l
      = ∑ i ∈ range N, (∑ u ∈ range (i + 1), ∑ p ∈ Ico (i + 1) N, block g N u p)
          * dInter P q d (i + 1) i
        + ∑ p ∈ range N, ∑ u ∈ range (p + 1), block g N u p * dInter P q d u p := by
    rw [Finset.mul_sum, ← sum_add_distrib]
    refine sum_congr rfl (fun l hl => ?_)
    rw [mem_range] at hl
    have hsplit : ∑ u ∈ range N, prob β (cycleE P q pre) N l u * dInter P q d u l
        = ∑ u ∈ range (l + 1), prob β (cycleE P q pre) N l u * dInter P q d u l
          + ∑ u ∈ Ico (l + 1) N, prob β (cycleE P q pre) N l u * dInter P q d u l := by
      rw [range_eq_Ico, range_eq_Ico, sum_Ico_consecutive _ (by omega) (by omega)]
    have hlast : ∑ u ∈ Ico (l + 1) N, prob β (cycleE P q pre) N l u * dInter P q d u l
        = (∑ u ∈ range (l + 1), ∑ p ∈ Ico (l + 1) N, block g N u p) / Z * dInter P q d (l + 1) l := by
      rcases Nat.eq_or_lt_of_le (Nat.succ_le_of_lt hl) with h | h
      · have h' : l + 1 = N := h
        rw [h', Ico_self, sum_empty]
        simp
      · have h' : l + 1 < N := h
        rw [sum_eq_sum_Ico_succ_bot h', prob_next hβ _ N l hl]
        have hz : ∑ u ∈ Ico (l + 1 + 1) N, prob β (cycleE P q pre) N l u * dInter P q d u l = 0 := by
          apply Finset.sum_eq_zero
          intro u hu
          rw [mem_Ico] at hu
          rw [prob_far hβ _ N l u (by omega), zero_mul]
        rw [hz, add_zero]
    rw [hsplit, hlast, mul_add, Finset.mul_sum, add_comm]
    congr 1
    · rw [div_mul_eq_mul_div, mul_div_cancel₀ _ hZ0]
    · refine sum_congr rfl (fun u hu => ?_)
      rw [mem_range] at hu
      rw [prob_back hβ _ N l u (by omega) hl, ← hg, ← hZd, div_mul_eq_mul_div,
        mul_div_cancel₀ _ hZ0]
  have a4 : ∑ p ∈ range N, ∑ u ∈ range (p + 1), block g N u p * dCycle P q d pre u p
      = 2 * pre * (∑ p ∈ range N, ∑ u ∈ range (p + 1), block g N u p * ∑ i ∈ Ico u (p + 1), dIntra P q d i
        + ∑ p ∈ range N, ∑ u ∈ range (p + 1), block g N u p * ∑ i ∈ Ico u p, dInter P q d (i + 1) i
        + ∑ p ∈ range N, ∑ u ∈ range (p + 1), block g N u p * dInter P q d u p) := by
    rw [← sum_add_distrib, ← sum_add_distrib, Finset.mul_sum]
    refine sum_congr rfl (fun p _ => ?_)
    rw [← sum_add_distrib, ← sum_add_distrib, Finset.mul_sum]
    refine sum_congr rfl (fun u _ => ?_)
    unfold dCycle; ring
  rw [a4, a1, a2]
  linear_combination (-2 * pre) * a3

/-- The work of the forces along `d` in terms of the links. -/
theorem force_work (hP : 2 ≤ P) (pref : ℝ) :
    ∑ l ∈ range N, ∑ j ∈ range P, ∑ c, force P N q pref (prob β (cycleE P q pre) N) j l c * d j l c
      = pref * (∑ i ∈ range N, dIntra P q d i
        + ∑ l ∈ range N, ∑ u ∈ range N, prob β (cycleE P q pre) N l u * dInter P q d u l) := by
  set p := prob β (cycleE P q pre) N with hp
  obtain ⟨n, rfl⟩ : ∃ n, P = n + 2 := ⟨P - 2, by omega⟩
  have hrow : ∀ l < N, ∑ u ∈ range N, p l u = 1 := fun l hl => prob_sum_successors hβ _ N l hl
  have hcol : ∀ u < N, ∑ l ∈ range N, p l u = 1 := fun u hu => prob_sum_predecessors hβ _ N u hu
  have f0 : ∀ l < N, ∀ c, force (n + 2) N q pref p 0 l c
      = pref * (∑ k ∈ range N, diffInter (n + 2) q l k c * p k l - diffIntra q 0 l c) := by
    intro l hl c
    unfold force
    rw [if_pos rfl]
    have : diffIntra q 0 l c = ∑ k ∈ range N, diffIntra q 0 l c * p k l := by
      rw [← Finset.mul_sum, hcol l hl, mul_one]
    rw [this, ← sum_sub_distrib, Finset.mul_sum]
    exact sum_congr rfl (fun k _ => by rw [← this]; ring)
  have f1 : ∀ l < N, ∀ c, force (n + 2) N q pref p (n + 1) l c
      = pref * (- ∑ k ∈ range N, diffInter (n + 2) q k l c * p l k + diffIntra q n l c) := by
    intro l hl c
    unfold force
    rw [if_neg (by omega), if_pos (by omega)]
    have : diffIntra q n l c = ∑ k ∈ range N, diffIntra q n l c * p l k := by
      rw [← Finset.mul_sum, hrow l hl, mul_one]
    rw [this, ← sum_neg_distrib, ← sum_add_distrib, Finset.mul_sum]
    exact sum_congr rfl (fun k _ => by rw [Nat.add_sub_cancel]; ring)
  have f2 : ∀ l, ∀ j < n, ∀ c, force (n + 2) N q pref p (j + 1) l c
      = pref * (- diffIntra q (j + 1) l c + diffIntra q j l c) := by
    intro l j hj c
    unfold force
    rw [if_neg (by omega), if_neg (by omega), Nat.add_sub_cancel]
  -- one particle and one direction
  have hone : ∀ l < N, ∀ c, ∑ j ∈ range (n + 2), force (n + 2) N q pref p j l c * d j l c
      = pref * (∑ j ∈ range (n + 1), diffIntra q j l c * diffIntra d j l c
        + ∑ k ∈ range N, p k l * (diffInter (n + 2) q l k c * d 0 l c)
        - ∑ k ∈ range N, p l k * (diffInter (n + 2) q k l c * d (n + 1) l c)) := by
    intro l hl c
    rw [sum_range_succ, sum_range_succ', f0 l hl c, f1 l hl c]
    have hin : ∑ j ∈ range n, force (n + 2) N q pref p (j + 1) l c * d (j + 1) l c
        = pref * ∑ j ∈ range n, (- diffIntra q (j + 1) l c + diffIntra q j l c) * d (j + 1) l c := by
      rw [Finset.mul_sum]
      refine sum_congr rfl (fun j hj => ?_)
      rw [f2 l j (mem_range.1 hj) c]; ring
    rw [hin]
    have habel : ∀ m, ∑ j ∈ range (m + 1), diffIntra q j l c * diffIntra d j l c
        = ∑ j ∈ range m, (- diffIntra q (j + 1) l c + diffIntra q j l c) * d (j + 1) l c
          - diffIntra q 0 l c * d 0 l c + diffIntra q m l c * d (m + 1) l c := by
      intro m
      induction m with
      | zero => simp [diffIntra]; ring
      | succ m ih =>
        rw [sum_range_succ, ih, sum_range_succ]
        unfold diffIntra; ring
    rw [habel n]
    have e1 : ∑ k ∈ range N, p k l * (diffInter (n + 2) q l k c * d 0 l c)
        = (∑ k ∈ range N, diffInter (n + 2) q l k c * p k l) * d 0 l c := by
      rw [Finset.sum_mul]; exact sum_congr rfl (fun k _ => by ring)
    have e2 : ∑ k ∈ range N, p l k * (diffInter (n + 2) q k l c * d (n + 1) l c)
        = (∑ k ∈ range N, diffInter (n + 2) q k l c * p l k) * d (n + 1) l c := by
      rw [Finset.sum_mul]; exact sum_congr rfl (fun k _ => by ring)
    rw [e1, e2]
    ring
  have hall : ∑ l ∈ range N, ∑ j ∈ range (n + 2), ∑ c, force (n + 2) N q pref p j l c * d j l c
      = ∑ l ∈ range N, ∑ c, pref * (∑ j ∈ range (n + 1), diffIntra q j l c * diffIntra d j l c
        + ∑ k ∈ range N, p k l * (diffInter (n + 2) q l k c * d 0 l c)
        - ∑ k ∈ range N, p l k * (diffInter (n + 2) q k l c * d (n + 1) l c)) := by
    refine sum_congr rfl (fun l hl => ?_)
    rw [Finset.sum_comm]
    exact sum_congr rfl (fun c _ => hone l (mem_range.1 hl) c)
  rw [hall]
  have b1 : ∀ l, dIntra (n + 2) q d l = ∑ c, ∑ j ∈ range (n + 1), diffIntra q j l c * diffIntra d j l c := by
    intro l; unfold dIntra; rw [Finset.sum_comm]; rfl
  have b2 : ∑ l ∈ range N, ∑ u ∈ range N, p l u * dInter (n + 2) q d u l
      = ∑ l ∈ range N, ∑ c, ∑ k ∈ range N, p k l * (diffInter (n + 2) q l k c * d 0 l c)
        - ∑ l ∈ range N, ∑ c, ∑ k ∈ range N, p l k * (diffInter (n + 2) q k l c * d (n + 1) l c) := by
    have x1 : ∑ l ∈ range N, ∑ u ∈ range N, p l u * dInter (n + 2) q d u l
        = ∑ l ∈ range N, ∑ u ∈ range N, ∑ c, p l u * (diffInter (n + 2) q u l c * d 0 u c)
          - ∑ l ∈ range N, ∑ u ∈ range N, ∑ c, p l u * (diffInter (n + 2) q u l c * d (n + 1) l c) := by
      rw [← sum_sub_distrib]
      refine sum_congr rfl (fun l _ => ?_)
      rw [← sum_sub_distrib]
      refine sum_congr rfl (fun u _ => ?_)
      rw [← sum_sub_distrib]
      unfold dInter
      rw [Finset.mul_sum]
      refine sum_congr rfl (fun c _ => ?_)
      have : diffInter (n + 2) d u l c = d 0 u c - d (n + 1) l c := rfl
      rw [this]; ring
    rw [x1]
    congr 1
    · rw [Finset.sum_comm]
      exact sum_congr rfl (fun l _ => Finset.sum_comm)
    · exact sum_congr rfl (fun l _ => Finset.sum_comm)
  rw [b2, sum_congr rfl (fun i _ => b1 i), ← add_sub_assoc, ← sum_add_distrib, ← sum_sub_distrib,
    Finset.mul_sum]
  refine sum_congr rfl (fun l _ => ?_)
  rw [← sum_add_distrib, ← sum_sub_distrib, Finset.mul_sum]

/-- The forces are minus the gradient of the exchange potential. -/
theorem force_gradient (hP : 2 ≤ P) :
    HasDerivAt (fun t => V β (cycleE P (move q d t) pre) N N)
      (- ∑ l ∈ range N, ∑ j ∈ range P, ∑ c,
        force P N q (-2 * pre) (prob β (cycleE P q pre) N) j l c * d j l c) 0 := by
  have h := hasDerivAt_V hβ P N q d pre
  refine HasDerivAt.congr_deriv h ?_
  rw [force_work hβ P N q d pre hP (-2 * pre)]
  ring

/-- In every direction the forces on all the beads of all the particles add up to zero. -/
theorem force_total (hP : 2 ≤ P) (pref : ℝ) (c : Fin 3) :
    ∑ l ∈ range N, ∑ j ∈ range P, force P N q pref (prob β (cycleE P q pre) N) j l c = 0 := by
  have h := force_work hβ P N q (fun _ _ c' => if c' = c then 1 else 0) pre hP pref
  have e1 : ∀ l, dIntra P q (fun _ _ c' => if c' = c then 1 else 0) l = 0 := by
    intro l; unfold dIntra diffIntra; simp
  have e2 : ∀ l m, dInter P q (fun _ _ c' => if c' = c then 1 else 0) l m = 0 := by
    intro l m; unfold dInter diffInter; simp
  simp only [e1, e2, mul_zero, Finset.sum_const_zero, add_zero] at h
  rw [← h]
  refine sum_congr rfl (fun l _ => sum_congr rfl (fun j _ => ?_))
  simp

end

/-- The potential of a result. -/
def energyOf (r : Except String (ℝ × (ℕ → ℕ → Fin 3 → ℝ))) : ℝ :=
  match r with
  | .ok x => x.1
  | .error _ => 0

/-- **C38, forces.**  For every number of particles, every number of beads from two on, all
positions and all temperatures, a result is returned and its forces are minus the gradient of its
potential: along every line of positions the derivative of the potential is minus the work of the
forces.  Missing: one bead, where the code fails (`one_bead_fails`). -/
theorem force_is_minus_gradient_partial (P N : ℕ) (hP : 2 ≤ P) (q : Pos) (β mω2 : ℝ) (hβ : 0 < β) :
    ∃ U F, springs P N q β mω2 = .ok (U, F) ∧ ∀ d : Pos,
      HasDerivAt (fun t : ℝ => energyOf (springs P N (fun j l c => q j l c + t * d j l c) β mω2))
        (- ∑ l ∈ range N, ∑ j ∈ range P, ∑ c, F j l c * d j l c) 0 := by
  have hs : ∀ q, springs P N q β mω2 = .ok (V β (cycleE P q (0.5 * mω2)) N N,
      force P N q (-1 * mω2) (prob β (cycleE P q (0.5 * mω2)) N)) := by
    intro q
    unfold springs
    rw [if_neg (by omega)]
  refine ⟨_, _, hs q, fun d => ?_⟩
  have h := force_gradient hβ.ne' P N q d (0.5 * mω2) hP
  have e : (-2 * (0.5 * mω2) : ℝ) = -1 * mω2 := by norm_num; ring
  rw [e] at h
  simp only [hs]
  exact h

/-- **C38, total force.**  In every direction the forces on all the beads of all the particles add
up to zero.  Missing: one bead, where the code fails. -/
theorem total_force_zero_partial (P N : ℕ) (hP : 2 ≤ P) (q : Pos) (β mω2 : ℝ) (hβ : 0 < β) :
    ∃ U F, springs P N q β mω2 = .ok (U, F) ∧
      ∀ c, ∑ l ∈ range N, ∑ j ∈ range P, F j l c = 0 := by
  refine ⟨V β (cycleE P q (0.5 * mω2)) N N,
    force P N q (-1 * mω2) (prob β (cycleE P q (0.5 * mω2)) N), ?_,
    fun c => force_total hβ.ne' P N q (0.5 * mω2) hP (-1 * mω2) c⟩
  unfold springs
  rw [if_neg (by omega)]

/-- With one bead, that is for classical particles, no potential and no forces are returned. -/
theorem one_bead_fails (N : ℕ) (q : Pos) (β mω2 : ℝ) :
    springs 1 N q β mω2 = .error "IndexError" := by
  unfold springs
  rw [if_pos (le_refl _)]

/-- Three particles with two beads at inverse temperature two: all the statements apply. -/
example : ∑ u ∈ range 3, prob 2 (cycleE 2 (fun j l _ => (j : ℝ) + 3 * l) 1) 3 1 u = 1 :=
  prob_sum_successors (by norm_num) _ 3 1 (by norm_num)

/-- The probability of staying alone is strictly between zero and one for two particles. -/
example (E : ℕ → ℕ → ℝ) : 0 < prob 2 E 2 0 0 ∧ 0 < prob 2 E 2 1 0 := by
  constructor <;> (unfold prob; rw [if_pos (by omega)]; positivity)

end Verif.Exchange
