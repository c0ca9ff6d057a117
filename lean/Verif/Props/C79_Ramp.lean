import Verif.Phys.Ramp
import Mathlib.Tactic.Linarith
import Mathlib.Tactic.FieldSimp
import Mathlib.Tactic.Ring
import Mathlib.Tactic.Positivity
import Mathlib.Tactic.NormNum

/-!
# C79: ramps go from the first value to the last and stay there

Specification: the schedule of a ramp of `total` steps from `a` to `b`; linear: equal differences;
logarithmic: equal ratios.
-/

namespace Verif.Ramp

theorem run_state (n : ℕ) (r : Ramp) : (run n r).1 = { r with current := r.current + n } := by
  induction n generalizing r with
  | zero => rfl
  | succ n ih =>
    rw [run, ih]
    simp only [step, Ramp.mk.injEq, true_and, and_true]
    omega

theorem value_current (r : Ramp) (c k : ℕ) : value { r with current := c } k = value r k := rfl

/-- **C79.**  The value written by step `i` (counted from the start of the simulation, across
restarts) is the schedule at that step. -/
theorem run_value (n : ℕ) (r : Ramp) (i : ℕ) (h : i < n) :
    (run n r).2[i]? = some (value r (r.current + i + 1)) := by
  induction n generalizing r i with
  | zero => omega
  | succ n ih =>
    cases i with
    | zero => rfl
    | succ i =>
      rw [run, List.getElem?_cons_succ, ih _ _ (by omega)]
      simp only [step, value_current]
      congr 2
      omega

theorem run_length (n : ℕ) (r : Ramp) : (run n r).2.length = n := by
  induction n generalizing r with
  | zero => rfl
  | succ n ih => simp [run, ih]

/-- **C79.**  Stopping after `m` steps and starting again from the stored state writes the same
values as going on. -/
theorem run_restart (m n : ℕ) (r : Ramp) :
    (run (m + n) r).2 = (run m r).2 ++ (run n (run m r).1).2 := by
  induction m generalizing r with
  | zero => simp [run]
  | succ m ih =>
    rw [Nat.succ_add, run, ih, run]
    rfl

/-- **C79.**  From step `total` on the value is the last one, whatever the scale. -/
theorem value_end (r : Ramp) {k : ℕ} (h : r.total ≤ k) : value r k = r.stop := if_pos h

/-- **C79.**  On a linear scale consecutive values differ by `(stop - start) / total` up to and
including the last step; the schedule starts at `start`. -/
theorem linear_steps (r : Ramp) (hl : r.logscale = false) {k : ℕ} (h : k < r.total) :
    value r (k + 1) - value r k = (r.stop - r.start) / r.total ∧ value r 0 = r.start := by
  have ht : (r.total : ℝ) ≠ 0 := by
    have : 0 < r.total := by omega
    positivity
  have hk : value r k = r.start + k * (r.stop - r.start) / r.total := by
    simp [value, hl, Nat.not_le.2 h]
  refine ⟨?_, by simp [value, hl, Nat.not_le.2 (Nat.zero_lt_of_lt h)]⟩
  rw [hk]
  rcases Nat.lt_or_ge (k + 1) r.total with h1 | h1
  · have : value r (k + 1) = r.start + (k + 1 : ℕ) * (r.stop - r.start) / r.total := by
      simp [value, hl, Nat.not_le.2 h1]
    rw [this]
    push_cast
    ring
  · rw [value_end _ h1]
    have he : (r.total : ℝ) = k + 1 := by
      have : r.total = k + 1 := by omega
      rw [this]; push_cast; ring
    rw [he] at ht ⊢
    field_simp
    ring

/-- **C79.**  On a logarithmic scale consecutive values have the same ratio, the `total`-th power of
which is `stop / start`; the schedule starts at `start`. -/
theorem log_steps (r : Ramp) (hl : r.logscale = true) (ha : 0 < r.start) (hb : 0 < r.stop) {k : ℕ}
    (h : k < r.total) :
    value r (k + 1) = value r k * (r.stop / r.start) ^ ((1 : ℝ) / r.total)
      ∧ ((r.stop / r.start) ^ ((1 : ℝ) / r.total)) ^ r.total = r.stop / r.start
      ∧ value r 0 = r.start := by
  have ht : (r.total : ℝ) ≠ 0 := by
    have : 0 < r.total := by omega
    positivity
  have hq : 0 < r.stop / r.start := div_pos hb ha
  have hk : ∀ j, j < r.total → value r j = r.start * (r.stop / r.start) ^ ((j : ℝ) / r.total) := by
    intro j hj
    simp [value, hl, Nat.not_le.2 hj]
  refine ⟨?_, ?_, ?_⟩
  · rw [hk k h, mul_assoc, ← Real.rpow_add hq]
    rcases Nat.lt_or_ge (k + 1) r.total with h1 | h1
    · rw [hk _ h1]
      congr 2
      push_cast
      ring
    · rw [value_end _ h1]
      have he : (k : ℝ) / r.total + 1 / r.total = 1 := by
        have : (r.total : ℝ) = k + 1 := by
          have : r.total = k + 1 := by omega
          rw [this]; push_cast; ring
        rw [this] at ht ⊢
        field_simp
      rw [he, Real.rpow_one]
      field_simp
  · rw [← Real.rpow_natCast, ← Real.rpow_mul hq.le, one_div, inv_mul_cancel₀ ht, Real.rpow_one]
  · rw [hk 0 (by omega)]
    simp

/-- Heating (or compressing): never decreasing. -/
theorem value_mono (r : Ramp) (hl : r.logscale = true → 0 < r.start) (hab : r.start ≤ r.stop)
    (k : ℕ) : value r k ≤ value r (k + 1) := by
  rcases Nat.lt_or_ge k r.total with h | h
  · cases hs : r.logscale
    · have h1 := (linear_steps r hs h).1
      have : 0 ≤ (r.stop - r.start) / r.total := div_nonneg (by linarith) (by positivity)
      linarith
    · have ha := hl hs
      have hb : 0 < r.stop := by linarith
      rw [(log_steps r hs ha hb h).1]
      have h0 : 0 ≤ value r k := by
        rw [value, if_neg (Nat.not_le.2 h), if_pos hs]
        positivity
      have h1 : 1 ≤ (r.stop / r.start) ^ ((1 : ℝ) / r.total) :=
        Real.one_le_rpow (by rw [le_div_iff₀ ha]; linarith) (by positivity)
      nlinarith
  · rw [value_end _ h, value_end _ (by omega)]

/-- Cooling: never increasing. -/
theorem value_anti (r : Ramp) (hl : r.logscale = true → 0 < r.stop) (hab : r.stop ≤ r.start)
    (k : ℕ) : value r (k + 1) ≤ value r k := by
  rcases Nat.lt_or_ge k r.total with h | h
  · cases hs : r.logscale
    · have h1 := (linear_steps r hs h).1
      have : (r.stop - r.start) / r.total ≤ 0 :=
        div_nonpos_of_nonpos_of_nonneg (by linarith) (by positivity)
      linarith
    · have hb := hl hs
      have ha : 0 < r.start := by linarith
      rw [(log_steps r hs ha hb h).1]
      have h0 : 0 ≤ value r k := by
        rw [value, if_neg (Nat.not_le.2 h), if_pos hs]
        positivity
      have h1 : (r.stop / r.start) ^ ((1 : ℝ) / r.total) ≤ 1 :=
        Real.rpow_le_one (by positivity) (by rw [div_le_one ha]; linarith) (by positivity)
      nlinarith
  · rw [value_end _ h, value_end _ (by omega)]

/-- **C79.**  Every value written lies between the two ends. -/
theorem value_between (r : Ramp) (hl : r.logscale = true → 0 < r.start ∧ 0 < r.stop) (k : ℕ) :
    min r.start r.stop ≤ value r k ∧ value r k ≤ max r.start r.stop := by
  have h0 : value r 0 = r.start ∨ value r 0 = r.stop := by
    rcases Nat.eq_zero_or_pos r.total with h | h
    · exact Or.inr (value_end _ (by omega))
    · cases hs : r.logscale
      · exact Or.inl (linear_steps r hs h).2
      · exact Or.inl (log_steps r hs (hl hs).1 (hl hs).2 h).2.2
  have hend : value r (r.total + k) = r.stop := value_end _ (by omega)
  rcases le_total r.start r.stop with hab | hab
  · have hm : Monotone (value r) := monotone_nat_of_le_succ (value_mono r (fun h => (hl h).1) hab)
    rw [min_eq_left hab, max_eq_right hab]
    refine ⟨?_, hend ▸ hm (by omega)⟩
    have := hm (Nat.zero_le k)
    rcases h0 with h | h <;> rw [h] at this <;> linarith
  · have hm : Antitone (value r) := antitone_nat_of_succ_le (value_anti r (fun h => (hl h).2) hab)
    rw [min_eq_right hab, max_eq_left hab]
    refine ⟨hend ▸ hm (by omega), ?_⟩
    have := hm (Nat.zero_le k)
    rcases h0 with h | h <;> rw [h] at this <;> linarith

/-- A ramp of four steps from 100 to 300, stopped and restarted after the second. -/
example : (run 5 ⟨100, 300, 4, 0, false⟩).2 = [150, 200, 250, 300, 300] := by
  simp [run, step, value]
  norm_num

example : (run 3 (run 2 ⟨100, 300, 4, 0, false⟩).1).2 = [250, 300, 300] := by
  simp [run, step, value]
  norm_num

example : value ⟨100, 400, 2, 0, true⟩ 1 = 200 := by
  have : (4 : ℝ) ^ ((1 : ℝ) / 2) = 2 := by
    rw [show (4 : ℝ) = 2 ^ (2 : ℝ) by norm_num, ← Real.rpow_mul (by norm_num)]
    norm_num
  simp only [value]
  norm_num

end Verif.Ramp
