import Mathlib.Data.Matrix.Mul
import Mathlib.LinearAlgebra.Matrix.Symmetric
import Mathlib.Algebra.BigOperators.Field
import Mathlib.Tactic.FieldSimp
import Mathlib.Tactic.Linarith
import Mathlib.Tactic.LinearCombination
import Mathlib.Tactic.NormNum
import Verif.Phys.Planetary
import Verif.Phys.Contract
import Verif.Props.C44_Cell
import Verif.Props.C135_Sparse

/-!
# C136: the frequency matrix of the planetary model
-/

namespace Verif.Planet

open Finset Verif.Cell Verif.Sparse

section matrix

variable {n N : ℕ}

/-- The sampled covariance of the mass-scaled normal mode `k`. -/
noncomputable def cov (sm3 : Fin N → ℝ) (nsamples : ℕ) (q : ℕ → Fin n → Fin N → ℝ) (k : Fin n) :
    Matrix (Fin N) (Fin N) ℝ := fun a b =>
  (∑ s ∈ range (nsamples + 1), (q s k a * sm3 a) * (q s k b * sm3 b)) / ((nsamples : ℝ) + 1)

/-- The mass-scaled second derivatives. -/
noncomputable def dyn (sm3 : Fin N → ℝ) (H : Matrix (Fin N) (Fin N) ℝ) : Matrix (Fin N) (Fin N) ℝ :=
  fun a b => H a b / (sm3 a * sm3 b)

theorem incr_harmonic (sm3 : Fin N → ℝ) (hsm : ∀ a, sm3 a ≠ 0) (omegak : Fin n → ℝ)
    (H : Matrix (Fin N) (Fin N) ℝ) (q f : Fin n → Fin N → ℝ)
    (hf : ∀ k : Fin n, (k : ℕ) ≠ 0 → ∀ a, f k a = -∑ b, H a b * q k b) (a b : Fin N) :
    incr sm3 omegak q f a b = ∑ k ∈ univ.filter (fun k : Fin n => (k : ℕ) ≠ 0),
      ((∑ c, dyn sm3 H a c * (q k c * sm3 c)) * (∑ d, dyn sm3 H b d * (q k d * sm3 d)) +
        0.5 * omegak k ^ 2 * ((∑ c, dyn sm3 H a c * (q k c * sm3 c)) * (q k b * sm3 b) +
          (∑ c, dyn sm3 H b c * (q k c * sm3 c)) * (q k a * sm3 a))) := by
  have hF : ∀ k : Fin n, (k : ℕ) ≠ 0 → ∀ a, f k a / sm3 a = -∑ c, dyn sm3 H a c * (q k c * sm3 c) := by
    intro k hk a
    rw [hf k hk, neg_div, sum_div]
    congr 1
    refine sum_congr rfl fun c _ => ?_
    unfold dyn
    have := hsm a; have := hsm c
    field_simp
  unfold incr
  rw [sum_filter, ← sum_add_distrib, mul_sum, ← sum_sub_distrib]
  refine sum_congr rfl fun k _ => ?_
  by_cases hk : (k : ℕ) = 0
  · simp [fms, hk]
  · simp only [fms, qms, hk, if_false, ne_eq, not_false_eq_true, if_true, hF k hk]
    ring

/-- **C136, the estimate.**  For a harmonic potential, once the internal modes have the covariances
of the canonical distribution of the ring polymer, `(D + ω²) C = n T`, the matrix that is
computed is the matrix of mass-scaled second derivatives, for every number of beads, every
temperature and every number of samples. -/
theorem harmonic_exact (sm3 : Fin N → ℝ) (hsm : ∀ a, sm3 a ≠ 0) (omegak : Fin n → ℝ) (temp : ℝ)
    (ht : temp ≠ 0) (hn : 2 ≤ n) (nsamples : ℕ) (H : Matrix (Fin N) (Fin N) ℝ)
    (hH : ∀ a b, H a b = H b a) (q f : ℕ → Fin n → Fin N → ℝ)
    (hf : ∀ s, ∀ k : Fin n, (k : ℕ) ≠ 0 → ∀ a, f s k a = -∑ b, H a b * q s k b)
    (hc : ∀ k : Fin n, (k : ℕ) ≠ 0 →
      (dyn sm3 H + (omegak k ^ 2) • 1) * cov sm3 nsamples q k = ((n : ℝ) * temp) • 1) (a b : Fin N) :
    estimate sm3 omegak temp nsamples q f a b = H a b / (sm3 a * sm3 b) := by
  set D := dyn sm3 H with hD
  have hDs : D.transpose = D := by
    ext x y
    simp only [hD, dyn, Matrix.transpose_apply, hH x y, mul_comm]
  have hCs : ∀ k, (cov sm3 nsamples q k).transpose = cov sm3 nsamples q k := by
    intro k; ext x y
    simp only [cov, Matrix.transpose_apply]
    congr 1
    exact sum_congr rfl fun s _ => mul_comm _ _
  have hc' : ∀ k : Fin n, (k : ℕ) ≠ 0 →
      cov sm3 nsamples q k * (D + (omegak k ^ 2) • 1) = ((n : ℝ) * temp) • 1 := by
    intro k hk
    have := congrArg Matrix.transpose (hc k hk)
    simpa [Matrix.transpose_mul, hCs, hDs] using this
  -- the contribution of one mode
  have hmode : ∀ k : Fin n, (k : ℕ) ≠ 0 →
      (D * cov sm3 nsamples q k * D + (0.5 * omegak k ^ 2) •
        (D * cov sm3 nsamples q k + cov sm3 nsamples q k * D)) = ((n : ℝ) * temp) • D := by
    intro k hk
    have h1 : D * (cov sm3 nsamples q k * (D + (omegak k ^ 2) • 1)) = ((n : ℝ) * temp) • D := by
      rw [hc' k hk]; simp
    have h2 : ((D + (omegak k ^ 2) • 1) * cov sm3 nsamples q k) * D = ((n : ℝ) * temp) • D := by
      rw [hc k hk]; simp
    have h1' : D * cov sm3 nsamples q k * D + (omegak k ^ 2) • (D * cov sm3 nsamples q k) =
        ((n : ℝ) * temp) • D := by
      rw [← h1]
      simp only [Matrix.mul_add, Matrix.mul_smul, Matrix.mul_one, Matrix.mul_assoc]
    have h2' : D * cov sm3 nsamples q k * D + (omegak k ^ 2) • (cov sm3 nsamples q k * D) =
        ((n : ℝ) * temp) • D := by
      rw [← h2]
      simp only [Matrix.add_mul, Matrix.smul_mul, Matrix.one_mul]
    ext x y
    have e1 := congrFun (congrFun h1' x) y
    have e2 := congrFun (congrFun h2' x) y
    simp only [Matrix.add_apply, Matrix.smul_apply, smul_eq_mul] at e1 e2 ⊢
    linear_combination (1 / 2) * e1 + (1 / 2) * e2
  -- entries of the products
  have hS : ((nsamples : ℝ) + 1) ≠ 0 := by positivity
  have hsum : ∑ s ∈ range (nsamples + 1), incr sm3 omegak (q s) (f s) a b =
      ((nsamples : ℝ) + 1) * ∑ k ∈ univ.filter (fun k : Fin n => (k : ℕ) ≠ 0), (((n : ℝ) * temp) • D) a b := by
    rw [mul_sum]
    have : ∀ s ∈ range (nsamples + 1), incr sm3 omegak (q s) (f s) a b = _ := fun s _ =>
      incr_harmonic sm3 hsm omegak H (q s) (f s) (hf s) a b
    rw [sum_congr rfl this, sum_comm]
    refine sum_congr rfl fun k hk => ?_
    have hk' : (k : ℕ) ≠ 0 := (mem_filter.1 hk).2
    rw [← hmode k hk']
    have p1 : ∀ x y, ((nsamples : ℝ) + 1) * (D * cov sm3 nsamples q k) x y =
        ∑ s ∈ range (nsamples + 1), (∑ c, D x c * (q s k c * sm3 c)) * (q s k y * sm3 y) := by
      intro x y
      rw [Matrix.mul_apply, mul_sum]
      simp only [cov, sum_mul]
      rw [sum_comm]
      refine sum_congr rfl fun c _ => ?_
      rw [mul_div_assoc', mul_div_assoc', mul_div_cancel_left₀ _ hS, mul_sum]
      exact sum_congr rfl fun s _ => by ring
    have p2 : ∀ x y, ((nsamples : ℝ) + 1) * (cov sm3 nsamples q k * D) x y =
        ∑ s ∈ range (nsamples + 1), (∑ c, D y c * (q s k c * sm3 c)) * (q s k x * sm3 x) := by
      intro x y
      rw [← p1 y x]
      congr 1
      have : (cov sm3 nsamples q k * D).transpose = D * cov sm3 nsamples q k := by
        rw [Matrix.transpose_mul, hDs, hCs]
      rw [← this]; rfl
    have p3 : ((nsamples : ℝ) + 1) * (D * cov sm3 nsamples q k * D) a b =
        ∑ s ∈ range (nsamples + 1), (∑ c, D a c * (q s k c * sm3 c)) * (∑ d, D b d * (q s k d * sm3 d)) := by
      rw [Matrix.mul_apply, mul_sum]
      have : ∀ d ∈ (univ : Finset (Fin N)), ((nsamples : ℝ) + 1) * ((D * cov sm3 nsamples q k) a d * D d b) =
          ∑ s ∈ range (nsamples + 1), (∑ c, D a c * (q s k c * sm3 c)) * (D b d * (q s k d * sm3 d)) := by
        intro d _
        rw [← mul_assoc, p1, sum_mul]
        refine sum_congr rfl fun s _ => ?_
        have : D d b = D b d := congrFun (congrFun hDs b) d
        rw [this]; ring
      rw [sum_congr rfl this, sum_comm]
      exact sum_congr rfl fun s _ => by rw [mul_sum]
    have e : (D * cov sm3 nsamples q k * D + (0.5 * omegak k ^ 2) •
        (D * cov sm3 nsamples q k + cov sm3 nsamples q k * D)) a b =
        (D * cov sm3 nsamples q k * D) a b + 0.5 * omegak k ^ 2 *
          ((D * cov sm3 nsamples q k) a b + (cov sm3 nsamples q k * D) a b) := rfl
    rw [e, mul_add, p3, show ((nsamples : ℝ) + 1) * (0.5 * omegak k ^ 2 *
      ((D * cov sm3 nsamples q k) a b + (cov sm3 nsamples q k * D) a b)) = 0.5 * omegak k ^ 2 *
      (((nsamples : ℝ) + 1) * (D * cov sm3 nsamples q k) a b +
        ((nsamples : ℝ) + 1) * (cov sm3 nsamples q k * D) a b) by ring, p1, p2, ← sum_add_distrib,
      mul_sum, ← sum_add_distrib]
  have hcard : ((univ.filter fun k : Fin n => (k : ℕ) ≠ 0).card : ℝ) = (n : ℝ) - 1 := by
    obtain ⟨m, rfl⟩ : ∃ m, n = m + 1 := ⟨n - 1, by omega⟩
    have : (univ.filter fun k : Fin (m + 1) => (k : ℕ) ≠ 0) = univ.erase 0 := by
      ext k
      simp only [mem_filter, mem_univ, true_and, mem_erase, and_true, ne_eq]
      rw [Fin.ext_iff]; rfl
    rw [this, card_erase_of_mem (mem_univ _)]
    simp
  unfold estimate
  rw [hsum, sum_const, nsmul_eq_mul, hcard]
  have hn1 : (n : ℝ) - 1 ≠ 0 := by
    have : (2 : ℝ) ≤ n := by exact_mod_cast hn
    intro h; linarith
  have hn0 : (n : ℝ) ≠ 0 := by
    have : (2 : ℝ) ≤ n := by exact_mod_cast hn
    intro h; linarith
  change _ * (_ * (_ * D a b)) / _ = D a b
  field_simp

/-- Whatever the potential and the samples, the matrix is symmetric. -/
theorem estimate_symm (sm3 : Fin N → ℝ) (omegak : Fin n → ℝ) (temp : ℝ) (nsamples : ℕ)
    (q f : ℕ → Fin n → Fin N → ℝ) (a b : Fin N) :
    estimate sm3 omegak temp nsamples q f a b = estimate sm3 omegak temp nsamples q f b a := by
  unfold estimate incr
  congr 1
  refine sum_congr rfl fun s _ => ?_
  rw [add_comm (∑ k, fms sm3 (f s) k a * qms sm3 omegak (q s) k b)]
  congr 1
  exact sum_congr rfl fun k _ => mul_comm _ _

/-- One coordinate with unit mass and force constant 3, two beads, temperature 1, `ω = 1`. -/
example : estimate (n := 2) (N := 1) (fun _ => 1) (fun _ => 1) 1 0
    (fun _ _ _ => √(1 / 2)) (fun _ _ _ => -(3 * √(1 / 2))) 0 0 = 3 := by
  have hs : √(1 / 2 : ℝ) * √(1 / 2 : ℝ) = 1 / 2 := Real.mul_self_sqrt (by norm_num)
  have := harmonic_exact (n := 2) (N := 1) (fun _ => 1) (fun _ => one_ne_zero) (fun _ => 1) 1 one_ne_zero
    le_rfl 0 (fun _ _ => 3) (fun _ _ => rfl) (fun _ _ _ => √(1 / 2)) (fun _ _ _ => -(3 * √(1 / 2)))
    (fun _ _ _ _ => by simp) (by
      intro k hk
      ext x y
      have hx : x = 0 := Subsingleton.elim _ _
      have hy : y = 0 := Subsingleton.elim _ _
      subst hx; subst hy
      have e : (cov (n := 2) (N := 1) (fun _ => 1) 0 (fun _ _ _ => √(1 / 2)) k) 0 0 = 1 / 2 := by
        rw [← hs]; simp [cov]
      rw [Matrix.mul_apply, Fin.sum_univ_one, e]
      simp [dyn]
      norm_num) 0 0
  simpa using this

end matrix

/-! ## Screening -/

/-- The expansion of a matrix of atoms gives each pair of atoms the three by three block of its
coordinates, and the shape of the frequency matrix. -/
theorem expand_block {α : Type} (n : ℕ) (A : ℕ → ℕ → α) (i j a b : ℕ) (hi : i < n) (hj : j < n)
    (ha : a < 3) (hb : b < 3) :
    (expand ⟨n, n, A⟩).at' (3 * i + a) (3 * j + b) = A i j ∧
    (expand ⟨n, n, A⟩).m = 3 * n ∧ (expand ⟨n, n, A⟩).n = 3 * n := by
  have hn : 0 < n := by omega
  have hm : 3 * n * (3 * n) / n = 9 * n := by
    rw [show 3 * n * (3 * n) = n * (9 * n) by ring, Nat.mul_div_cancel_left _ hn]
  refine ⟨?_, rfl, ?_⟩
  · have e : (expand ⟨n, n, A⟩).at' (3 * i + a) (3 * j + b) =
        (fun X => (fun r t => A ((r * n + t) / (3 * n) % n) ((r * n + t) % (3 * n) % n))
          (X % (3 * n * (3 * n) / n)) (X / (3 * n * (3 * n) / n))) ((3 * j + b) * (3 * n) + (3 * i + a)) := rfl
    rw [e, hm]
    dsimp only
    have hX : (3 * j + b) * (3 * n) + (3 * i + a) = 9 * n * j + (3 * n * b + (3 * i + a)) := by ring
    have hb' : n * b ≤ n * 2 := Nat.mul_le_mul_left _ (by omega)
    have hr : 3 * n * b + (3 * i + a) < 9 * n := by
      have : 3 * n * b = 3 * (n * b) := by ring
      omega
    have h1 : ((3 * j + b) * (3 * n) + (3 * i + a)) / (9 * n) = j := by
      rw [hX, Nat.mul_add_div (by omega), Nat.div_eq_of_lt hr, add_zero]
    have h2 : ((3 * j + b) * (3 * n) + (3 * i + a)) % (9 * n) = 3 * n * b + (3 * i + a) := by
      rw [hX, Nat.mul_add_mod, Nat.mod_eq_of_lt hr]
    rw [h1, h2]
    have hY : (3 * n * b + (3 * i + a)) * n + j = 3 * n * (n * b + i) + (a * n + j) := by ring
    have ha' : a * n ≤ 2 * n := Nat.mul_le_mul_right _ (by omega)
    have hq : a * n + j < 3 * n := by omega
    have h3 : ((3 * n * b + (3 * i + a)) * n + j) / (3 * n) = n * b + i := by
      rw [hY, Nat.mul_add_div (by omega), Nat.div_eq_of_lt hq, add_zero]
    have h4 : ((3 * n * b + (3 * i + a)) * n + j) % (3 * n) = a * n + j := by
      rw [hY, Nat.mul_add_mod, Nat.mod_eq_of_lt hq]
    rw [h3, h4, Nat.mul_add_mod, Nat.mod_eq_of_lt hi, Nat.mul_comm a n, Nat.mul_add_mod,
      Nat.mod_eq_of_lt hj]
  · change n * (3 * n * (3 * n) / n) / (3 * n) = 3 * n
    rw [hm, show n * (9 * n) = 3 * n * (3 * n) by ring, Nat.mul_div_cancel _ (by omega)]

theorem near_eq (h ih : Verif.Cell.Mat) (screen : ℝ) (q : ℕ → Vec) (i j : ℕ) :
    near h ih screen q i j = if len2 (minimumDistance h ih (q i) (q j)) < screen ^ 2 then 1 else 0 := by
  unfold near len2
  simp only [pow_two]

theorem roundEven_neg (x : ℝ) : roundEven (-x) = -roundEven x := by
  unfold roundEven
  have h1 := Int.floor_le x
  have h2 := Int.lt_floor_add_one x
  by_cases hz : x = ⌊x⌋
  · have : ⌊-x⌋ = -⌊x⌋ := by
      rw [Int.floor_eq_iff]; push_cast; constructor <;> linarith
    have a1 : x - ⌊x⌋ < 1 / 2 := by rw [← hz]; norm_num
    have a2 : -x - (⌊-x⌋ : ℝ) < 1 / 2 := by rw [this]; push_cast; rw [← hz]; norm_num
    rw [if_pos a1, if_pos a2, this]
  · have hlt : (⌊x⌋ : ℝ) < x := lt_of_le_of_ne h1 (Ne.symm hz)
    have : ⌊-x⌋ = -⌊x⌋ - 1 := by
      rw [Int.floor_eq_iff]; push_cast; constructor <;> linarith
    have e : -x - (⌊-x⌋ : ℝ) = 1 - (x - ⌊x⌋) := by rw [this]; push_cast; ring
    rw [e, this]
    by_cases a1 : x - ⌊x⌋ < 1 / 2
    · rw [if_pos a1, if_neg (by linarith), if_pos (by linarith)]; ring
    · rw [if_neg a1]
      by_cases a2 : 1 / 2 < x - ⌊x⌋
      · rw [if_pos a2, if_pos (by linarith)]; ring
      · rw [if_neg a2, if_neg (by linarith), if_neg (by linarith)]
        by_cases a3 : ⌊x⌋ % 2 = 0
        · rw [if_pos a3, if_neg (by omega)]; ring
        · rw [if_neg a3, if_pos (by omega)]; ring

theorem near_symm (h ih : Verif.Cell.Mat) (screen : ℝ) (q : ℕ → Vec) (i j : ℕ) :
    near h ih screen q i j = near h ih screen q j i := by
  have : minimumDistance h ih (q j) (q i) = -minimumDistance h ih (q i) (q j) := by
    unfold minimumDistance
    rw [← Matrix.mulVec_neg]
    congr 1
    have : ih.mulVec (q j - q i) = -ih.mulVec (q i - q j) := by rw [← Matrix.mulVec_neg, neg_sub]
    rw [this]
    funext d
    simp only [frac, Pi.neg_apply, roundEven_neg]
    push_cast; ring
  unfold near
  rw [this]
  simp

/-- **C136, what is written.**  Of a symmetric matrix the lower triangle is written; with a positive
screening distance the blocks of the pairs of atoms farther apart than that are zero, all
the other entries are untouched. -/
theorem saved (h ih : Verif.Cell.Mat) (screen : ℝ) (natoms : ℕ) (q : ℕ → Vec) (omega2 : ℕ → ℕ → ℝ)
    (hs : ∀ a b, omega2 a b = omega2 b a) (i j a b : ℕ) (hi : i < natoms) (hj : j < natoms)
    (ha : a < 3) (hb : b < 3) :
    toSave h ih screen natoms q omega2 (3 * i + a) (3 * j + b) =
      if 3 * j + b ≤ 3 * i + a then
        (if 0 < screen ∧ screen ^ 2 ≤ len2 (minimumDistance h ih (q i) (q j)) then 0
         else omega2 (3 * i + a) (3 * j + b))
      else 0 := by
  unfold toSave
  dsimp only
  split
  · by_cases h0 : 0 < screen
    · simp only [if_pos h0, (expand_block natoms _ i j a b hi hj ha hb).1,
        (expand_block natoms _ j i b a hj hi hb ha).1]
      rw [near_symm h ih screen q j i, near_eq, hs (3 * j + b)]
      by_cases h1 : len2 (minimumDistance h ih (q i) (q j)) < screen ^ 2
      · rw [if_pos h1, if_neg (by push Not; exact fun _ => h1)]
        norm_num
        ring
      · rw [if_neg h1, if_pos ⟨h0, not_lt.1 h1⟩]
        norm_num
    · simp only [if_neg h0]
      rw [if_neg (fun hh => h0 hh.1), hs (3 * j + b)]
      norm_num
      ring
  · rfl

/-- The whole matrix is recovered from what is written. -/
theorem saved_whole (h ih : Verif.Cell.Mat) (natoms : ℕ) (q : ℕ → Vec) (omega2 : ℕ → ℕ → ℝ)
    (hs : ∀ a b, omega2 a b = omega2 b a) (a b : ℕ) :
    omega2 a b = toSave h ih 0 natoms q omega2 (max a b) (min a b) := by
  unfold toSave
  dsimp only
  rw [if_pos (min_le_max), if_neg (lt_irrefl _), if_neg (lt_irrefl _)]
  rcases le_total a b with hab | hab
  · rw [max_eq_right hab, min_eq_left hab, hs b a]; norm_num; ring
  · rw [max_eq_left hab, min_eq_right hab, hs b a]; norm_num; ring

/-- What was written comes back from the compressed columns, with whatever rounding `half` to
half precision. -/
theorem saved_csc (M : ℕ → ℕ → ℝ) (half : ℝ → ℚ) (natoms i j : ℕ) (hi : i < 3 * natoms)
    (hj : j < 3 * natoms) :
    (toarray 0 (load (save (csc (fun x : ℚ => decide (x ≠ 0))
      ⟨3 * natoms, 3 * natoms, fun a b => half (M a b)⟩)))).at' i j = half (M i j) := by
  have h1 : load (save (csc (fun x : ℚ => decide (x ≠ 0))
      ⟨3 * natoms, 3 * natoms, fun a b => half (M a b)⟩)) = _ := rfl
  have h2 := csc_entries (fun x : ℚ => decide (x ≠ 0)) 0
    ⟨3 * natoms, 3 * natoms, fun a b => half (M a b)⟩ i j hi hj
  refine Eq.trans ?_ (h2.trans ?_)
  · rw [save_load]
  · dsimp only
    by_cases h : half (M i j) = 0 <;> simp [h]

example := saved 1 1 2 2 (fun i => fun _ => (i : ℝ)) (fun _ _ => 3) (fun _ _ => rfl) 1 0 2 1
  (by decide) (by decide) (by decide) (by decide)

/-! ## Beads -/

/-- With a smaller number of beads all modes get the frequency of the slowest internal mode of a
ring polymer with that number of beads. -/
theorem modeFreq_eq (nbase nb : ℕ) (hb : 2 ≤ nbase) (temp : ℝ) (omegak : ℕ → ℝ)
    (ho : omegak 1 = 2 * (nbase * temp) * Real.sin (Real.pi / nbase)) :
    modeFreq nbase nb omegak = .ok (2 * (nb * temp) * Real.sin (Real.pi / nb)) := by
  have h2 : (2 : ℝ) ≤ nbase := by exact_mod_cast hb
  have hs : 0 < Real.sin (Real.pi / nbase) := by
    apply Real.sin_pos_of_pos_of_lt_pi
    · exact div_pos Real.pi_pos (by linarith)
    · rw [div_lt_iff₀ (by linarith)]
      nlinarith [Real.pi_pos]
  unfold modeFreq
  rw [if_neg (by omega), ho]
  congr 1
  have : (nbase : ℝ) ≠ 0 := by linarith
  field_simp

/-- The contraction of a path in normal mode coordinates, as everywhere else in the program. -/
noncomputable def contracted (n1 n2 : ℕ) (qnm : ℕ → ℝ) (k : ℕ) : ℝ :=
  (∑ j ∈ range n1, Contract.red n1 n2 k j * qnm j) * √((n2 : ℝ) / n1)

/-- With the same number of beads the calculation starts from the path itself. -/
theorem start_same (n : ℕ) (hn : 0 < n) (qnm : ℕ → ℝ) : start n n qnm = .ok qnm := by
  unfold start
  rw [if_pos le_rfl]
  congr 1
  funext k
  have : √(n : ℝ) ≠ 0 := by
    rw [Real.sqrt_ne_zero (by positivity)]; exact_mod_cast hn.ne'
  field_simp

theorem contracted_zero (n1 n2 : ℕ) (k j : ℕ) (hj : j < n1)
    (v : ℝ) : contracted n1 n2 (fun i => if i = j then v else 0) k =
      Contract.red n1 n2 k j * v * √((n2 : ℝ) / n1) := by
  unfold contracted
  congr 1
  rw [sum_eq_single j]
  · simp
  · intro x _ hx; simp [hx]
  · intro hx; exact absurd (mem_range.2 hj) hx

/-- Full statement: the calculation with a reduced number of beads starts from the contraction of
the path.  It fails for every reduction to three or more beads. -/
theorem not_start_contracted (n1 n2 : ℕ) (h3 : 3 ≤ n2) (h : n2 < n1) :
    ¬ ∀ qnm : ℕ → ℝ, ∃ q, start n1 n2 qnm = .ok q ∧ ∀ k < n2, q k = contracted n1 n2 qnm k := by
  intro hall
  obtain ⟨q, hq, hk⟩ := hall fun i => if i = n1 - 1 then 1 else 0
  have := hk (n2 - 1) (by omega)
  rw [contracted_zero n1 n2 (n2 - 1) (n1 - 1) (by omega)] at this
  unfold start at hq
  rw [if_pos h.le] at hq
  have hq' := Except.ok.inj hq
  rw [← hq'] at this
  dsimp only at this
  rw [if_neg (by omega)] at this
  have hr : Contract.red n1 n2 (n2 - 1) (n1 - 1) = 1 := by
    unfold Contract.red
    rw [if_neg (by omega), if_neg (by omega), if_pos]
    rw [List.any_eq_true]
    exact ⟨1, by rw [List.mem_range'_1]; omega, by simp⟩
  rw [hr] at this
  have hpos : 0 < √((n2 : ℝ) / n1) := by
    apply Real.sqrt_pos.2
    apply div_pos <;> exact_mod_cast (by omega)
  rw [zero_mul, zero_div, one_mul, one_mul] at this
  exact hpos.ne this

/-- A reduction to two beads is the contraction. -/
theorem start_contracted_partial (n1 n2 : ℕ) (h2 : n2 = 1 ∨ n2 = 2) (h : n2 < n1) (qnm : ℕ → ℝ) :
    ∃ q, start n1 n2 qnm = .ok q ∧ ∀ k < n2, q k = contracted n1 n2 qnm k := by
  refine ⟨_, if_pos h.le, fun k hk => ?_⟩
  unfold contracted
  have hr : ∀ j ∈ range n1, Contract.red n1 n2 k j * qnm j = if j = k then qnm j else 0 := by
    intro j hj
    have hj' := mem_range.1 hj
    rcases h2 with rfl | rfl
    · have : k = 0 := by omega
      subst this
      unfold Contract.red
      by_cases hj0 : j = 0
      · subst hj0; simp
      · simp [hj0]
    · unfold Contract.red
      have : k = 0 ∨ k = 1 := by omega
      rcases this with rfl | rfl
      · by_cases hj0 : j = 0
        · subst hj0; simp
        · simp [hj0]
      · by_cases hj1 : j = 1
        · subst hj1
          rw [if_neg (by omega)]
          simp
        · by_cases hjn : j = n1 - 1
          · simp [hjn]
            intro hh; omega
          · simp [hjn, hj1]
  rw [sum_congr rfl hr, sum_ite_eq' (range n1) k, if_pos (mem_range.2 (by omega)),
    Real.sqrt_div (by positivity)]
  ring

/-- A path cannot be used with more beads than it has, and a single bead not at all. -/
theorem more_beads_fails (nbase nb : ℕ) (h : nbase < nb) (h1 : nbase ≠ 1) (qnm : ℕ → ℝ) :
    start nbase nb qnm = .error .valueError := by
  unfold start
  rw [if_neg (by omega), if_neg h1]

theorem one_bead_fails (nb : ℕ) (omegak : ℕ → ℝ) : modeFreq 1 nb omegak = .error .indexError := rfl

/-! ## Saving -/

/-- No archive is ever written: the buffer in which it is collected does not take bytes. -/
theorem encodedSavez_fails (archive : List UInt8) : encodedSavez archive = .error .typeError := rfl

/-- Full statement: the matrix is written at every `stride`-th step.  It never is: the first step
that should write it fails, and that is the very first one. -/
theorem never_written (stride step : ℕ) (hs : 0 < stride) (archive : List UInt8) (text : Verif.Text.Str) :
    planetStep stride step archive ≠ .ok (some text) ∧
    planetStep stride 0 archive = .error (.savez .typeError) := by
  constructor
  · unfold planetStep
    rw [if_neg (by omega)]
    split
    · intro h; cases h
    · intro h; cases h
  · unfold planetStep
    rw [if_neg (by omega), if_neg (by simp)]
    rfl

/-- In the other steps nothing is done. -/
theorem skipped (stride step : ℕ) (archive : List UInt8) (h : step % stride ≠ 0) (hs : 0 < stride) :
    planetStep stride step archive = .ok none := by
  unfold planetStep
  rw [if_neg (by omega), if_pos h]

example := not_start_contracted 8 4 (by decide) (by decide)
example := modeFreq_eq 4 2 (by decide) 1 (fun _ => 2 * (4 * 1) * Real.sin (Real.pi / 4)) (by norm_num)

end Verif.Planet
