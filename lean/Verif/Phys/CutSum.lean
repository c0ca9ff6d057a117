import Mathlib.Algebra.BigOperators.Group.Finset.Basic
import Mathlib.Algebra.BigOperators.Intervals
import Mathlib.Algebra.BigOperators.Group.List.Lemmas
import Mathlib.Algebra.BigOperators.Ring.List
import Mathlib.Algebra.BigOperators.Ring.Finset
import Mathlib.Algebra.Order.BigOperators.Ring.Finset
import Mathlib.Tactic.Ring
import Mathlib.Tactic.Linarith
import Mathlib.Tactic.LinearCombination

/-!
# Sums over all the ways of cutting a row of particles into consecutive groups

The small specification behind properties C37 and C38.  A cutting of the particles
`l, …, m - 1` is a list of groups `(u, v)` (first and last particle) that follow one another.
-/

namespace Verif.Cut

open Finset

/-- `bs` is a cutting of the particles `l, …, m - 1`. -/
inductive IsCutting : ℕ → ℕ → List (ℕ × ℕ) → Prop
  | nil (l : ℕ) : IsCutting l l []
  | cons {l v m : ℕ} {bs : List (ℕ × ℕ)} (h : l ≤ v) (hv : v < m) (t : IsCutting (v + 1) m bs) :
      IsCutting l m ((l, v) :: bs)

/-- All the cuttings of the `n` particles that start at `l`. -/
def cuttings (l : ℕ) : (n : ℕ) → List (List (ℕ × ℕ))
  | 0 => [[]]
  | n + 1 => (List.range (n + 1)).flatMap
      (fun k => (cuttings (l + k + 1) (n - k)).map (fun bs => (l, l + k) :: bs))
  termination_by n => n
  decreasing_by omega

/-- The list has exactly the cuttings. -/
theorem mem_cuttings (n l : ℕ) (bs : List (ℕ × ℕ)) :
    bs ∈ cuttings l n ↔ IsCutting l (l + n) bs := by
  induction n using Nat.strong_induction_on generalizing l bs with
  | _ n ih =>
    cases n with
    | zero =>
      rw [cuttings]
      constructor
      · intro h
        rw [List.mem_singleton] at h
        subst h
        exact IsCutting.nil l
      · intro h
        cases h with
        | nil => simp
        | cons h hv t => omega
    | succ n =>
      rw [cuttings, List.mem_flatMap]
      constructor
      · rintro ⟨k, hk, h⟩
        rw [List.mem_range] at hk
        obtain ⟨t, ht, rfl⟩ := List.mem_map.1 h
        have := (ih (n - k) (by omega) (l + k + 1) t).1 ht
        have e : l + k + 1 + (n - k) = l + (n + 1) := by omega
        rw [e] at this
        exact IsCutting.cons (by omega) (by omega) this
      · intro h
        generalize hm : l + (n + 1) = m at h
        cases h with
        | nil => omega
        | @cons _ v _ t h hv ht =>
          refine ⟨v - l, List.mem_range.2 (by omega), List.mem_map.2 ⟨t, ?_, ?_⟩⟩
          · refine (ih (n - (v - l)) (by omega) _ t).2 ?_
            have e1 : l + (v - l) + 1 = v + 1 := by omega
            have e2 : v + 1 + (n - (v - l)) = m := by omega
            rw [e1, e2]; exact ht
          · have e1 : l + (v - l) = v := by omega
            rw [e1]

/-- No cutting is listed twice. -/
theorem nodup_cuttings (n l : ℕ) : (cuttings l n).Nodup := by
  induction n using Nat.strong_induction_on generalizing l with
  | _ n ih =>
    cases n with
    | zero => rw [cuttings]; simp
    | succ n =>
      rw [cuttings, List.nodup_flatMap]
      constructor
      · intro k hk
        refine List.Nodup.map ?_ (ih (n - k) (by omega) _)
        intro a b hab
        simpa using hab
      · refine (List.nodup_range (n := n + 1)).imp ?_
        intro a b hab x hx hy
        obtain ⟨s, -, rfl⟩ := List.mem_map.1 hx
        obtain ⟨t, -, ht⟩ := List.mem_map.1 hy
        simp only [List.cons.injEq, Prod.mk.injEq] at ht
        omega

section
variable {R : Type} [CommRing R]

/-- Product of the weights of the groups. -/
def weight (g : ℕ → ℕ → R) (bs : List (ℕ × ℕ)) : R := (bs.map (fun b => g b.1 b.2)).prod

/-- Sum over all the cuttings of the particles `l, …, m - 1` of the product of the weights. -/
def W (g : ℕ → ℕ → R) (l m : ℕ) : R := ((cuttings l (m - l)).map (weight g)).sum

theorem W_self (g : ℕ → ℕ → R) (l : ℕ) : W g l l = 1 := by
  unfold W
  rw [Nat.sub_self, cuttings]
  simp [weight]

theorem sum_flatMap {α : Type} (f : α → List R) (xs : List α) :
    (xs.flatMap f).sum = (xs.map (fun a => (f a).sum)).sum := by
  induction xs with
  | nil => rfl
  | cons a t ih => rw [List.flatMap_cons, List.sum_append, List.map_cons, List.sum_cons, ih]

theorem sum_map_range (f : ℕ → R) (n : ℕ) : ((List.range n).map f).sum = ∑ k ∈ range n, f k := by
  induction n with
  | zero => rfl
  | succ n ih => rw [List.range_succ, List.map_append, List.sum_append, ih, sum_range_succ]; simp

/-- The first group. -/
theorem W_first (g : ℕ → ℕ → R) (l m : ℕ) (h : l < m) :
    W g l m = ∑ p ∈ Ico l m, g l p * W g (p + 1) m := by
  obtain ⟨n, rfl⟩ : ∃ n, m = l + (n + 1) := ⟨m - l - 1, by omega⟩
  unfold W
  have e0 : l + (n + 1) - l = n + 1 := by omega
  rw [e0, cuttings, List.map_flatMap, sum_flatMap, sum_map_range, sum_Ico_eq_sum_range, e0]
  refine sum_congr rfl (fun k hk => ?_)
  rw [mem_range] at hk
  have e1 : l + (n + 1) - (l + k + 1) = n - k := by omega
  rw [e1, List.map_map, ← List.sum_map_mul_left]
  congr 1

/-- The last group. -/
theorem W_last (g : ℕ → ℕ → R) (m : ℕ) : ∀ (n l : ℕ), m - l = n → l < m →
    W g l m = ∑ u ∈ Ico l m, W g l u * g u (m - 1) := by
  intro n
  induction n using Nat.strong_induction_on with
  | _ n ih =>
    intro l hn h
    rw [W_first g l m h]
    obtain ⟨k, rfl⟩ : ∃ k, m = k + 1 := ⟨m - 1, by omega⟩
    have hlk : l ≤ k := by omega
    rw [sum_Ico_succ_top hlk, W_self, mul_one]
    have e1 : ∀ p ∈ Ico l k, g l p * W g (p + 1) (k + 1)
        = ∑ u ∈ Ico (p + 1) (k + 1), g l p * W g (p + 1) u * g u k := by
      intro p hp
      rw [mem_Ico] at hp
      rw [ih (k + 1 - (p + 1)) (by omega) (p + 1) rfl (by omega), Finset.mul_sum]
      exact sum_congr rfl (fun u _ => by rw [Nat.add_sub_cancel]; ring)
    rw [sum_congr rfl e1]
    have e2 : ∑ p ∈ Ico l k, ∑ u ∈ Ico (p + 1) (k + 1), g l p * W g (p + 1) u * g u k
        = ∑ u ∈ Ico (l + 1) (k + 1), ∑ p ∈ Ico l u, g l p * W g (p + 1) u * g u k := by
      apply Finset.sum_comm'
      intro x y
      simp only [mem_Ico]
      omega
    rw [e2, sum_eq_sum_Ico_succ_bot (by omega : l < k + 1), W_self, one_mul, Nat.add_sub_cancel,
      add_comm]
    congr 1
    refine sum_congr rfl (fun u hu => ?_)
    rw [mem_Ico] at hu
    rw [W_first g l u (by omega), Finset.sum_mul]

theorem W_last' (g : ℕ → ℕ → R) (l m : ℕ) (h : l ≤ m) :
    W g l (m + 1) = ∑ u ∈ Ico l (m + 1), W g l u * g u m := by
  rw [W_last g (m + 1) _ l rfl (by omega), Nat.add_sub_cancel]

/-- Weight of the cuttings of `N` particles that have the group `(u, p)`. -/
def block (g : ℕ → ℕ → R) (N u p : ℕ) : R := W g 0 u * g u p * W g (p + 1) N

/-- All groups that end at `p`. -/
theorem block_end (g : ℕ → ℕ → R) (N p : ℕ) :
    ∑ u ∈ range (p + 1), block g N u p = W g 0 (p + 1) * W g (p + 1) N := by
  rw [W_last' g 0 p (by omega), Finset.sum_mul, range_eq_Ico]
  exact sum_congr rfl (fun u _ => rfl)

/-- All groups that start at `u`. -/
theorem block_start (g : ℕ → ℕ → R) (N u : ℕ) (h : u < N) :
    ∑ p ∈ Ico u N, block g N u p = W g 0 u * W g u N := by
  rw [W_first g u N h, Finset.mul_sum]
  exact sum_congr rfl (fun p _ => by unfold block; ring)

/-- A cutting either has a cut after `k` or a group that goes over it. -/
theorem block_over (g : ℕ → ℕ → R) (N : ℕ) : ∀ k, k < N →
    ∑ u ∈ range (k + 1), ∑ p ∈ Ico (k + 1) N, block g N u p
      = W g 0 N - W g 0 (k + 1) * W g (k + 1) N := by
  intro k
  induction k with
  | zero =>
    intro h
    rw [Finset.sum_range_one]
    have h1 := block_start g N 0 h
    rw [W_self, one_mul, sum_eq_sum_Ico_succ_bot h] at h1
    have h2 := block_end g N 0
    rw [Finset.sum_range_one] at h2
    rw [← h2, ← h1]; ring
  | succ k ih =>
    intro h
    have ih' := ih (by omega)
    rw [sum_range_succ]
    have h1 := block_start g N (k + 1) h
    rw [sum_eq_sum_Ico_succ_bot h] at h1
    have h2 := block_end g N (k + 1)
    rw [sum_range_succ] at h2
    have e : ∑ u ∈ range (k + 1), ∑ p ∈ Ico (k + 1) N, block g N u p
        = ∑ u ∈ range (k + 1), block g N u (k + 1)
          + ∑ u ∈ range (k + 1), ∑ p ∈ Ico (k + 1 + 1) N, block g N u p := by
      rw [← sum_add_distrib]
      exact sum_congr rfl (fun u _ => by rw [sum_eq_sum_Ico_succ_bot h])
    rw [e] at ih'
    linear_combination ih' + h1 - h2

/-- Every particle belongs to exactly one group. -/
theorem block_in (g : ℕ → ℕ → R) (N k : ℕ) (h : k < N) :
    ∑ u ∈ range (k + 1), ∑ p ∈ Ico k N, block g N u p = W g 0 N := by
  have e : ∑ u ∈ range (k + 1), ∑ p ∈ Ico k N, block g N u p
      = ∑ u ∈ range (k + 1), block g N u k
        + ∑ u ∈ range (k + 1), ∑ p ∈ Ico (k + 1) N, block g N u p := by
    rw [← sum_add_distrib]
    exact sum_congr rfl (fun u _ => by rw [sum_eq_sum_Ico_succ_bot h])
  rw [e, block_over g N k h, block_end]; ring

/-- A product rule: if `D` behaves like a derivative of `W` along its last-group recurrence,
with `d` in place of the derivative of `g`, then `D` is the sum over all groups. -/
theorem W_deriv (g d : ℕ → ℕ → R) (D : ℕ → R) (h0 : D 0 = 0) (N : ℕ)
    (h : ∀ m < N, D (m + 1) = ∑ u ∈ range (m + 1), (D u * g u m + W g 0 u * d u m)) :
    ∀ m ≤ N, D m = ∑ p ∈ range m, ∑ u ∈ range (p + 1), W g 0 u * d u p * W g (p + 1) m := by
  intro m
  induction m using Nat.strong_induction_on with
  | _ m ih =>
    intro hm
    cases m with
    | zero => simpa using h0
    | succ m =>
      rw [h m (by omega), sum_add_distrib, sum_range_succ]
      have e0 : ∑ u ∈ range (m + 1), W g 0 u * d u m * W g (m + 1) (m + 1)
          = ∑ u ∈ range (m + 1), W g 0 u * d u m :=
        sum_congr rfl (fun u _ => by rw [W_self, mul_one])
      rw [sum_range_succ (fun p => ∑ u ∈ range (p + 1), W g 0 u * d u p * W g (p + 1) (m + 1)) m, e0]
      congr 1
      rw [← sum_range_succ (fun u => D u * g u m) m]
      have e1 : ∀ u ∈ range (m + 1), D u * g u m
          = ∑ p ∈ range u, (∑ a ∈ range (p + 1), W g 0 a * d a p * W g (p + 1) u) * g u m := by
        intro u hu
        rw [mem_range] at hu
        rw [ih u hu (by omega), Finset.sum_mul]
      rw [sum_congr rfl e1]
      have e2 : ∑ u ∈ range (m + 1), ∑ p ∈ range u,
            (∑ a ∈ range (p + 1), W g 0 a * d a p * W g (p + 1) u) * g u m
          = ∑ p ∈ range m, ∑ u ∈ Ico (p + 1) (m + 1),
            (∑ a ∈ range (p + 1), W g 0 a * d a p * W g (p + 1) u) * g u m := by
        apply Finset.sum_comm'
        intro x y
        simp only [mem_range, mem_Ico]
        omega
      rw [e2]
      refine sum_congr rfl (fun p hp => ?_)
      rw [mem_range] at hp
      have e3 : ∀ u ∈ Ico (p + 1) (m + 1),
          (∑ a ∈ range (p + 1), W g 0 a * d a p * W g (p + 1) u) * g u m
            = ∑ a ∈ range (p + 1), W g 0 a * d a p * (W g (p + 1) u * g u m) := by
        intro u _
        rw [Finset.sum_mul]
        exact sum_congr rfl (fun a _ => by ring)
      rw [sum_congr rfl e3, Finset.sum_comm]
      refine sum_congr rfl (fun a _ => ?_)
      rw [← Finset.mul_sum, ← W_last' g (p + 1) m (by omega)]

end

section
variable {R : Type} [CommRing R] [LinearOrder R] [IsStrictOrderedRing R]

theorem W_pos (g : ℕ → ℕ → R) (hg : ∀ u v, 0 < g u v) (m : ℕ) : ∀ l, 0 < W g l m ∨ m < l := by
  intro l
  rcases Nat.lt_or_ge m l with h | h
  · exact Or.inr h
  · left
    generalize hn : m - l = n
    induction n using Nat.strong_induction_on generalizing l with
    | _ n ih =>
      rcases Nat.eq_or_lt_of_le h with he | hlt
      · subst he; rw [W_self]; exact one_pos
      · rw [W_first g l m hlt]
        apply Finset.sum_pos
        · intro p hp
          rw [mem_Ico] at hp
          exact mul_pos (hg _ _) (ih (m - (p + 1)) (by omega) (p + 1) (by omega) rfl)
        · exact ⟨l, mem_Ico.2 ⟨le_refl _, hlt⟩⟩

theorem W_pos' (g : ℕ → ℕ → R) (hg : ∀ u v, 0 < g u v) {l m : ℕ} (h : l ≤ m) : 0 < W g l m := by
  rcases W_pos g hg m l with h' | h'
  · exact h'
  · omega

/-- Cuttings with a cut at `k` are among all the cuttings. -/
theorem W_mul_le (g : ℕ → ℕ → R) (hg : ∀ u v, 0 < g u v) {l k : ℕ} (hlk : l ≤ k) :
    ∀ m, k ≤ m → W g l k * W g k m ≤ W g l m := by
  intro m
  induction m using Nat.strong_induction_on with
  | _ m ih =>
    intro hkm
    rcases Nat.eq_or_lt_of_le hkm with he | hlt
    · subst he; rw [W_self, mul_one]
    · obtain ⟨n, rfl⟩ : ∃ n, m = n + 1 := ⟨m - 1, by omega⟩
      rw [W_last' g l n (by omega), W_last' g k n (by omega), Finset.mul_sum]
      have hsub : Ico k (n + 1) ⊆ Ico l (n + 1) := by
        intro x hx
        rw [mem_Ico] at hx ⊢
        omega
      calc ∑ u ∈ Ico k (n + 1), W g l k * (W g k u * g u n)
          ≤ ∑ u ∈ Ico k (n + 1), W g l u * g u n := by
            apply Finset.sum_le_sum
            intro u hu
            rw [mem_Ico] at hu
            rw [← mul_assoc]
            exact mul_le_mul_of_nonneg_right (ih u (by omega) (by omega)) (hg _ _).le
        _ ≤ _ := by
            apply Finset.sum_le_sum_of_subset_of_nonneg hsub
            intro u hu _
            rw [mem_Ico] at hu
            exact mul_nonneg (W_pos' g hg (by omega)).le (hg _ _).le

/-- Weights of smaller absolute value give a smaller sum. -/
theorem W_abs_le (g h : ℕ → ℕ → R) (hg : ∀ u v, |h u v| ≤ g u v) (m : ℕ) :
    ∀ n l, m - l = n → l ≤ m → |W h l m| ≤ W g l m := by
  intro n
  induction n using Nat.strong_induction_on with
  | _ n ih =>
    intro l hn hl
    rcases Nat.eq_or_lt_of_le hl with he | hlt
    · subst he; rw [W_self, W_self, abs_one]
    · rw [W_first g l m hlt, W_first h l m hlt]
      refine le_trans (Finset.abs_sum_le_sum_abs _ _) ?_
      apply Finset.sum_le_sum
      intro p hp
      rw [mem_Ico] at hp
      rw [abs_mul]
      exact mul_le_mul (hg _ _) (ih (m - (p + 1)) (by omega) (p + 1) rfl (by omega))
        (abs_nonneg _) (le_trans (abs_nonneg _) (hg _ _))

end

/-- Three particles can be cut in four ways. -/
example : cuttings 0 3 = [[(0, 0), (1, 1), (2, 2)], [(0, 0), (1, 2)], [(0, 1), (2, 2)], [(0, 2)]] := by
  decide +kernel

end Verif.Cut
