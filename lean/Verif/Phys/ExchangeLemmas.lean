import Verif.Phys.CutSum
import Verif.Phys.Exchange
import Mathlib.Tactic.FieldSimp
import Mathlib.Algebra.BigOperators.Field
import Mathlib.Data.List.GetD
import Mathlib.Tactic.Positivity

/-!
# Lemmas on the recurrences of the exchange potential
-/

namespace Verif.Exchange

open Finset Verif.Cut

/-- The weight of one cycle of the particles `u … v`: its Boltzmann factor divided by the number
of particles up to and including `v`. -/
noncomputable def gw (β : ℝ) (E : ℕ → ℕ → ℝ) (u v : ℕ) : ℝ := Real.exp (-β * E u v) / ((v + 1 : ℕ) : ℝ)

theorem gw_pos (β : ℝ) (E : ℕ → ℕ → ℝ) (u v : ℕ) : 0 < gw β E u v := by
  unfold gw
  have : (0 : ℝ) < ((v + 1 : ℕ) : ℝ) := by positivity
  exact div_pos (Real.exp_pos _) this

theorem sum_zipIdx (f : ℝ → ℕ → ℝ) (xs : List ℝ) : ∀ k,
    ((xs.zipIdx k).map (fun p => f p.1 p.2)).sum
      = ∑ u ∈ range xs.length, f (xs.getD u 0) (k + u) := by
  induction xs with
  | nil => intro k; simp
  | cons x t ih =>
    intro k
    rw [List.zipIdx_cons, List.map_cons, List.sum_cons, ih (k + 1), List.length_cons,
      sum_range_succ']
    simp only [List.getD_cons_zero, List.getD_cons_succ, Nat.add_zero]
    rw [add_comm]
    congr 1
    refine sum_congr rfl (fun u _ => ?_)
    congr 1; omega

theorem prefixV_length (β : ℝ) (E : ℕ → ℕ → ℝ) (m : ℕ) : (prefixV β E m).length = m + 1 := by
  induction m with
  | zero => rfl
  | succ m ih => rw [prefixV, List.length_append, ih]; rfl

theorem suffixV_length (β : ℝ) (E : ℕ → ℕ → ℝ) (N k : ℕ) : (suffixV β E N k).length = k + 1 := by
  induction k with
  | zero => rfl
  | succ m ih => rw [suffixV, List.length_cons, ih]

theorem prefixV_getD (β : ℝ) (E : ℕ → ℕ → ℝ) (m i k : ℕ) (h : i ≤ m) :
    (prefixV β E (m + k)).getD i 0 = (prefixV β E m).getD i 0 := by
  induction k with
  | zero => rfl
  | succ k ih =>
    rw [← Nat.add_assoc, prefixV, List.getD_append _ _ _ _ (by rw [prefixV_length]; omega), ih]

/-- Entry `m` does not depend on how many more entries are computed. -/
theorem V_eq (β : ℝ) (E : ℕ → ℕ → ℝ) (N m : ℕ) (h : m ≤ N) :
    V β E N m = (prefixV β E m).getD m 0 := by
  unfold V
  obtain ⟨k, rfl⟩ := Nat.exists_eq_add_of_le h
  exact prefixV_getD β E m m k (le_refl _)

theorem V_zero (β : ℝ) (E : ℕ → ℕ → ℝ) (N : ℕ) : V β E N 0 = 0 := by
  rw [V_eq β E N 0 (Nat.zero_le _)]; rfl

theorem exp_neg_log {β : ℝ} (hβ : β ≠ 0) (e s : ℝ) (hs : 0 < s) :
    Real.exp (-β * (e - Real.log s / β)) = Real.exp (-β * e) * s := by
  have : -β * (e - Real.log s / β) = -β * e + Real.log s := by field_simp; ring
  rw [this, Real.exp_add, Real.exp_log hs]

/-- The recurrence of the prefix potentials: the shift by the smallest entry does not matter. -/
theorem exp_V_succ {β : ℝ} (hβ : β ≠ 0) (E : ℕ → ℕ → ℝ) (N m : ℕ) (h : m < N) :
    Real.exp (-β * V β E N (m + 1))
      = ∑ u ∈ range (m + 1), Real.exp (-β * V β E N u) * gw β E u m := by
  rw [V_eq β E N (m + 1) h, prefixV, List.getD_append_right _ _ _ _ (by rw [prefixV_length]),
    prefixV_length, Nat.sub_self, List.getD_cons_zero]
  unfold prefixNext
  simp only [List.map_map]
  generalize minList _ = el
  have hm : (0 : ℝ) < ((m + 1 : ℕ) : ℝ) := by positivity
  have e1 : ((prefixV β E m).zipIdx.map
        ((fun s => Real.exp (-β * (s - el))) ∘ fun x => x.1 + E x.2 (m + 1 - 1))).sum
      = ∑ u ∈ range (m + 1), Real.exp (-β * (V β E N u + E u m - el)) := by
    have := sum_zipIdx (fun v u => Real.exp (-β * (v + E u m - el))) (prefixV β E m) 0
    rw [prefixV_length] at this
    simp only [Nat.zero_add] at this
    rw [Nat.add_sub_cancel]
    refine Eq.trans this (sum_congr rfl (fun u hu => ?_))
    rw [mem_range] at hu
    rw [V_eq β E N u (by omega)]
    have h2 := prefixV_getD β E u u (m - u) (le_refl _)
    rw [show u + (m - u) = m from by omega] at h2
    rw [h2]
  rw [e1]
  have hpos : 0 < ∑ u ∈ range (m + 1), Real.exp (-β * (V β E N u + E u m - el)) :=
    Finset.sum_pos (fun u _ => Real.exp_pos _) ⟨0, by simp⟩
  rw [exp_neg_log hβ _ _ (div_pos hpos hm), ← mul_div_assoc, Finset.mul_sum, Finset.sum_div]
  refine sum_congr rfl (fun u _ => ?_)
  unfold gw
  rw [← mul_div_assoc, ← Real.exp_add, ← Real.exp_add]
  congr 2; ring

/-- The prefix potential is the sum over all cuttings. -/
theorem exp_V {β : ℝ} (hβ : β ≠ 0) (E : ℕ → ℕ → ℝ) (N : ℕ) : ∀ m ≤ N,
    Real.exp (-β * V β E N m) = W (gw β E) 0 m := by
  intro m
  induction m using Nat.strong_induction_on with
  | _ m ih =>
    intro hm
    cases m with
    | zero => rw [V_zero, W_self]; simp
    | succ m =>
      rw [exp_V_succ hβ E N m (by omega), W_last' _ 0 m (by omega), range_eq_Ico]
      refine sum_congr rfl (fun u hu => ?_)
      rw [mem_Ico] at hu
      rw [ih u (by omega) (by omega)]

/-- The suffix entries, counted from the front of the list. -/
theorem exp_suffix {β : ℝ} (hβ : β ≠ 0) (E : ℕ → ℕ → ℝ) (N : ℕ) : ∀ k ≤ N, ∀ i ≤ k,
    Real.exp (-β * (suffixV β E N k).getD i 0) = W (gw β E) (N - k + i) N := by
  intro k
  induction k with
  | zero =>
    intro _ i hi
    obtain rfl : i = 0 := by omega
    rw [suffixV, List.getD_cons_zero]
    simp [W_self]
  | succ k ih =>
    intro hk i hi
    rw [suffixV]
    cases i with
    | succ i =>
      rw [List.getD_cons_succ, ih (by omega) i (by omega)]
      congr 1; omega
    | zero =>
      rw [List.getD_cons_zero]
      obtain ⟨l, hl⟩ : ∃ l, N - (k + 1) = l := ⟨_, rfl⟩
      rw [hl]
      unfold suffixNext
      simp only
      generalize minList _ = el
      have e1 : ∀ xs : List ℝ, ((xs.zipIdx.map (fun x : ℝ × ℕ => E l (l + x.2) + x.1)).zipIdx.map
            (fun x : ℝ × ℕ => ((l + x.2 + 1 : ℕ) : ℝ)⁻¹ * Real.exp (-β * (x.1 - el)))).sum
          = ∑ u ∈ range xs.length,
            ((l + u + 1 : ℕ) : ℝ)⁻¹ * Real.exp (-β * (E l (l + u) + xs.getD u 0 - el)) := by
        intro xs
        have := sum_zipIdx (fun v u => ((l + u + 1 : ℕ) : ℝ)⁻¹ * Real.exp (-β * (v - el)))
          (xs.zipIdx.map (fun x : ℝ × ℕ => E l (l + x.2) + x.1)) 0
        simp only [Nat.zero_add, List.length_map, List.length_zipIdx] at this
        refine this.trans (sum_congr rfl (fun u hu => ?_))
        rw [mem_range] at hu
        congr 4
        rw [List.getD_eq_getElem _ _ (by simpa using hu), List.getD_eq_getElem _ _ hu]
        simp
      rw [e1, suffixV_length]
      have hpos : 0 < ∑ u ∈ range (k + 1), ((l + u + 1 : ℕ) : ℝ)⁻¹
          * Real.exp (-β * (E l (l + u) + (suffixV β E N k).getD u 0 - el)) := by
        refine Finset.sum_pos (fun u _ => ?_) ⟨0, by simp⟩
        exact mul_pos (by positivity) (Real.exp_pos _)
      rw [exp_neg_log hβ _ _ hpos, Finset.mul_sum, Nat.add_zero l, W_first _ l N (by omega),
        sum_Ico_eq_sum_range, show N - l = k + 1 from by omega]
      refine sum_congr rfl (fun u hu => ?_)
      rw [mem_range] at hu
      rw [show l + u + 1 = N - k + u from by omega, ← ih (by omega) u (by omega)]
      unfold gw
      rw [show N - k + u = l + u + 1 from by omega, ← mul_assoc,
        mul_comm (Real.exp _) (_⁻¹), mul_assoc, ← Real.exp_add, div_eq_inv_mul, mul_assoc,
        ← Real.exp_add]
      congr 2; ring

/-- The suffix potential is the sum over all cuttings of the particles from `l` on. -/
theorem exp_RV {β : ℝ} (hβ : β ≠ 0) (E : ℕ → ℕ → ℝ) (N l : ℕ) (h : l ≤ N) (hN : 0 < N) :
    Real.exp (-β * RV β E N l) = W (gw β E) l N := by
  unfold RV
  by_cases h0 : l = 0
  · rw [if_pos h0, h0, exp_V hβ E N N (le_refl _)]
  · rw [if_neg h0, exp_suffix hβ E N (N - 1) (by omega) (l - 1) (by omega)]
    congr 1; omega

end Verif.Exchange
