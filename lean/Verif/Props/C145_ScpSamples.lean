import Verif.Phys.ScPhonons
import Mathlib.Data.List.Range
import Mathlib.Tactic.Linarith

/-!
# C145: the samples of self-consistent phonon calculations

Every iteration has the number of samples asked for, in pairs placed symmetrically about the centre,
from random vectors used by no other pair of the run, and each is evaluated.
-/

namespace Verif.Scp

open Matrix

/-- Specification: pairs of a sample and its inversion, from the random vectors `base + 1`,
`base + 2`, ... -/
def pairs (base n : ℕ) : List Draw :=
  (List.range n).flatMap fun j => [⟨base + j + 1, false⟩, ⟨base + j + 1, true⟩]

theorem pairs_succ (base n : ℕ) :
    pairs base (n + 1) = pairs base n ++ [⟨base + n + 1, false⟩, ⟨base + n + 1, true⟩] := by
  simp [pairs, List.range_succ]

theorem pairs_length (base n : ℕ) : (pairs base n).length = 2 * n := by
  induction n with
  | zero => rfl
  | succ n ih => rw [pairs_succ, List.length_append, ih]; simp; omega

theorem draws_go (isc n nseq : ℕ) (hr : isc * n + n < nseq) : ∀ r k fuel, k + r = n → r < fuel →
    draws isc (2 * n) nseq fuel (2 * k + 1) (pairs (isc * n) k) = some (pairs (isc * n) n) := by
  have hi : ∀ k, irng isc (2 * n) (2 * k + 1) = isc * n + k + 1 := by
    intro k
    unfold irng
    have h1 : isc * (2 * n) = 2 * (isc * n) := by ring
    rw [h1]
    omega
  intro r
  induction r with
  | zero =>
    intro k fuel hk hf
    obtain ⟨f, rfl⟩ : ∃ f, fuel = f + 1 := ⟨fuel - 1, by omega⟩
    have : k = n := by omega
    subst this
    unfold draws
    rw [if_neg (by omega)]
  | succ r ih =>
    intro k fuel hk hf
    obtain ⟨f, rfl⟩ : ∃ f, fuel = f + 1 := ⟨fuel - 1, by omega⟩
    unfold draws
    rw [if_pos (by omega), hi k, if_pos (by omega), if_pos (by omega), ← pairs_succ]
    exact ih (k + 1) f (by omega) (by omega)

/-- **C145.** With an even number of samples every iteration makes them in pairs of a displacement
and its inverse, as many as asked for, each pair from its own random vector. -/
theorem samples_even (isc n maxIter : ℕ) (hn : 0 < n) (hi : isc < maxIter) :
    allDraws isc (2 * n) maxIter = some (pairs (isc * n) n) ∧ (pairs (isc * n) n).length = 2 * n := by
  refine ⟨?_, pairs_length _ _⟩
  unfold allDraws
  have h1 : isc * n + n ≤ maxIter * n := by
    calc isc * n + n = (isc + 1) * n := by ring
      _ ≤ maxIter * n := Nat.mul_le_mul_right _ hi
  have h2 : 0 < maxIter * n := Nat.mul_pos (by omega) hn
  have h3 : 2 * n * maxIter = 2 * (maxIter * n) := by ring
  exact draws_go isc n (2 * n * maxIter) (by omega) n 0 (2 * n + 1) (by omega) (by omega)

theorem mem_pairs {base n : ℕ} {w : Draw} (h : w ∈ pairs base n) :
    base < w.rng ∧ w.rng ≤ base + n := by
  simp only [pairs, List.mem_flatMap, List.mem_range, List.mem_cons, List.not_mem_nil, or_false] at h
  obtain ⟨j, hj, rfl | rfl⟩ := h <;> exact ⟨by simp only []; omega, by simp only []; omega⟩

/-- **C145.** No random vector is used in two iterations. -/
theorem samples_disjoint (i j n maxIter : ℕ) (hn : 0 < n) (hi : i < maxIter) (hj : j < maxIter)
    (hij : i ≠ j) (li lj : List Draw) (h1 : allDraws i (2 * n) maxIter = some li)
    (h2 : allDraws j (2 * n) maxIter = some lj) : ∀ a ∈ li, ∀ b ∈ lj, a.rng ≠ b.rng := by
  rw [(samples_even i n maxIter hn hi).1] at h1
  rw [(samples_even j n maxIter hn hj).1] at h2
  obtain rfl := Option.some.inj h1
  obtain rfl := Option.some.inj h2
  intro a ha b hb hab
  obtain ⟨a1, a2⟩ := mem_pairs ha
  obtain ⟨b1, b2⟩ := mem_pairs hb
  rcases Nat.lt_or_gt_of_ne hij with h | h
  · have : (i + 1) * n ≤ j * n := Nat.mul_le_mul_right _ h
    have e : (i + 1) * n = i * n + n := by ring
    omega
  · have : (j + 1) * n ≤ i * n := Nat.mul_le_mul_right _ h
    have e : (j + 1) * n = j * n + n := by ring
    omega

/-- Within an iteration only a sample and its inversion share a random vector. -/
theorem samples_nodup (base n : ℕ) : (pairs base n).Nodup := by
  induction n with
  | zero => simp [pairs]
  | succ n ih =>
    rw [pairs_succ, List.nodup_append]
    refine ⟨ih, by simp, ?_⟩
    intro a ha b hb hab
    subst hab
    have := mem_pairs ha
    simp at hb
    rcases hb with rfl | rfl <;> simp at this

theorem draws_odd (isc n nseq : ℕ) : ∀ r k fuel acc, k + r = n → r < fuel →
    draws isc (2 * n + 1) nseq fuel (2 * k + 1) acc = none := by
  intro r
  induction r with
  | zero =>
    intro k fuel acc hk hf
    obtain ⟨f, rfl⟩ : ∃ f, fuel = f + 1 := ⟨fuel - 1, by omega⟩
    unfold draws
    rw [if_pos (by omega)]
    split
    · rw [if_neg (by omega)]
    · rfl
  | succ r ih =>
    intro k fuel acc hk hf
    obtain ⟨f, rfl⟩ : ∃ f, fuel = f + 1 := ⟨fuel - 1, by omega⟩
    unfold draws
    rw [if_pos (by omega)]
    split
    · rw [if_pos (by omega)]
      exact ih (k + 1) f _ (by omega) (by omega)
    · rfl

/-- **Disagreement.** With an odd number of samples (`max_steps`) the first iteration ends with an
`IndexError`: nothing checks that the number is even. -/
theorem samples_odd (isc n maxIter : ℕ) : allDraws isc (2 * n + 1) maxIter = none :=
  draws_odd isc n _ n 0 _ [] (by omega) (by omega)

/-- **C145.** The samples of a pair are opposite about the centre: their sum is twice the centre. -/
theorem sample_opposite {d : ℕ} (q : Vec d) (A : Mat d) (seq : ℕ → Vec d) (r : ℕ) :
    sample q A seq ⟨r, false⟩ + sample q A seq ⟨r, true⟩ = (2 : ℝ) • q := by
  funext a
  simp only [sample, Pi.add_apply, Pi.smul_apply, smul_eq_mul]
  simp
  ring

theorem eval_go {d : ℕ} (np n : ℕ) (hnp : 0 < np) (x : ℕ → Vec d) (pot : Vec d → ℝ)
    (force : Vec d → Vec d) : ∀ r k fuel (s : Eval d), k + r = n → r ≤ fuel → s.imc = k * np + 1 →
    (∀ j < k * np, s.v j = some (pot (x j)) ∧ s.f j = some (force (x j))) →
    (evalAll np (n * np) x pot force fuel s).imc = n * np + 1 ∧
    ∀ j < n * np, (evalAll np (n * np) x pot force fuel s).v j = some (pot (x j)) ∧
      (evalAll np (n * np) x pot force fuel s).f j = some (force (x j)) := by
  intro r
  induction r with
  | zero =>
    intro k fuel s hk hf hi hv
    have : k = n := by omega
    subst this
    cases fuel with
    | zero => exact ⟨hi, hv⟩
    | succ f =>
      unfold evalAll
      rw [if_neg (by omega)]
      exact ⟨hi, hv⟩
  | succ r ih =>
    intro k fuel s hk hf hi hv
    obtain ⟨f, rfl⟩ : ∃ f, fuel = f + 1 := ⟨fuel - 1, by omega⟩
    unfold evalAll
    have h1 : (k + 1) * np ≤ n * np := Nat.mul_le_mul_right _ (by omega)
    have h2 : (k + 1) * np = k * np + np := by ring
    rw [if_pos (by omega)]
    refine ih (k + 1) f (evalStep np x pot force s) (by omega) (by omega) ?_ ?_
    · simp only [evalStep]
      omega
    · intro j hj
      simp only [evalStep, hi, Nat.add_sub_cancel]
      by_cases h : k * np ≤ j ∧ j < k * np + np
      · rw [if_pos h, if_pos h]
        exact ⟨rfl, rfl⟩
      · rw [if_neg h, if_neg h]
        exact hv j (by omega)

/-- **C145.** Whatever the number of samples evaluated at a time, if it divides the number of samples
(which is checked), then after that many steps every sample has its own potential and forces, and
the iteration is over. -/
theorem all_evaluated {d : ℕ} (np n : ℕ) (hnp : 0 < np) (x : ℕ → Vec d) (pot : Vec d → ℝ)
    (force : Vec d → Vec d) :
    let s := evalAll np (n * np) x pot force n ⟨1, fun _ => none, fun _ => none⟩
    n * np < s.imc ∧ ∀ j < n * np, s.v j = some (pot (x j)) ∧ s.f j = some (force (x j)) := by
  intro s
  obtain ⟨h1, h2⟩ := eval_go np n hnp x pot force n 0 n ⟨1, fun _ => none, fun _ => none⟩ (by omega)
    le_rfl (by simp) (by simp)
  exact ⟨by rw [h1]; omega, h2⟩

/-- Two iterations of four samples. -/
example : allDraws 0 4 2 = some [⟨1, false⟩, ⟨1, true⟩, ⟨2, false⟩, ⟨2, true⟩] ∧
    allDraws 1 4 2 = some [⟨3, false⟩, ⟨3, true⟩, ⟨4, false⟩, ⟨4, true⟩] := by decide

/-! ## Starting again -/

/-- **C145.** A new run in an empty directory writes the samples it made, and finds them again if the
calculation is repeated from the beginning. -/
theorem reload_first {d : ℕ} (M : ℕ) (x fresh : List (Vec d)) (hx : x.length = M) (isc : ℕ)
    (fs : Files d) : resetX M (printX true fs isc x) isc fresh = some x := by
  simp [resetX, printX, loadX, hx]

/-- **Disagreement.** A run continued from a restart file starts again at the first iteration and
reads its samples from the file. It then appends them to the file they come from; so the run after
that stops with an error. -/
theorem second_restart_fails {d : ℕ} (M : ℕ) (hM : 0 < M) (x fresh : List (Vec d)) (hx : x.length = M)
    (fs : Files d) :
    let f1 := printX true fs 0 x
    resetX M f1 0 fresh = some x ∧ resetX M (printX false f1 0 x) 0 fresh = none := by
  intro f1
  refine ⟨reload_first M x fresh hx 0 fs, ?_⟩
  simp [f1, resetX, printX, loadX, hx]
  omega

end Verif.Scp
