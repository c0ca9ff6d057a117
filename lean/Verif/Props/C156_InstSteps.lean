import Verif.Phys.InstSteps
import Verif.Props.C89_Saddle
import Mathlib.Tactic.FieldSimp
import Mathlib.Tactic.Positivity
import Mathlib.Tactic.NormNum
import Mathlib.Algebra.BigOperators.Field
import Mathlib.LinearAlgebra.Matrix.NonsingularInverse

/-!
# C156: start, steps and end of an instanton calculation
-/

namespace Verif.InstSteps

open Matrix Verif.QN Finset

/-! ## The imaginary mode -/

section
variable {n : ℕ}

theorem freq_neg {u d : ℝ} (hu : 0 < u) : freq u d < 0 ↔ d < 0 := by
  unfold freq
  rw [div_lt_iff₀ hu, zero_mul]
  split
  · rename_i h
    have : 0 < √|d| := Real.sqrt_pos.2 (abs_pos.2 h.ne)
    exact ⟨fun _ => h, fun _ => by linarith⟩
  · rename_i h
    exact ⟨fun h' => absurd h' (not_lt.2 (Real.sqrt_nonneg _)), fun h' => absurd h' h⟩

theorem freq_pos {u d : ℝ} (hu : 0 < u) : 0 < freq u d ↔ 0 < d := by
  unfold freq
  rw [lt_div_iff₀ hu, zero_mul]
  split
  · rename_i h
    have := Real.sqrt_nonneg |d|
    exact ⟨fun h' => by linarith, fun h' => by linarith⟩
  · rename_i h
    rw [Real.sqrt_pos, abs_pos]
    exact ⟨fun h' => lt_of_le_of_ne (not_lt.1 h) (Ne.symm h'), fun h' => h'.ne'⟩

variable {u : ℝ} {m d : Fin (n + 1) → ℝ} {h w : Matrix (Fin (n + 1)) (Fin (n + 1)) ℝ} {v : Fin (n + 1) → ℝ}

/-- Which Hessians are accepted. -/
theorem imv_accepted (hu : 0 < u) :
    (∃ v, imvector u m d w = .ok v) ↔ d 0 = 0 ∨ freq u (d 0) ≤ -80 := by
  unfold imvector
  have h1 := freq_neg (d := d 0) hu
  have h2 := freq_pos (d := d 0) hu
  by_cases hA : -80 < freq u (d 0) ∧ freq u (d 0) < 0
  · rw [if_pos hA]
    constructor
    · rintro ⟨v, hv⟩; cases hv
    · rintro (h0 | h0)
      · exact absurd (h1.1 hA.2) (by rw [h0]; exact lt_irrefl _)
      · linarith [hA.1]
  · rw [if_neg hA]
    by_cases hB : 0 < freq u (d 0)
    · rw [if_pos hB]
      constructor
      · rintro ⟨v, hv⟩; cases hv
      · rintro (h0 | h0)
        · exact absurd (h2.1 hB) (by rw [h0]; exact lt_irrefl _)
        · linarith
    · rw [if_neg hB]
      refine ⟨fun _ => ?_, fun _ => ⟨_, rfl⟩⟩
      by_contra hc
      push Not at hc
      rcases lt_trichotomy (d 0) 0 with h | h | h
      · exact hA ⟨hc.2, h1.2 h⟩
      · exact hc.1 h
      · exact hB (h2.2 h)

theorem imv_eq (hv : imvector u m d w = .ok v) :
    v = fun a => w a 0 / √(m a) / √(∑ b, (w b 0 / √(m b)) ^ 2) := by
  unfold imvector at hv
  split at hv
  · cases hv
  · split at hv
    · cases hv
    · exact (Except.ok.inj hv).symm

theorem column_norm (e : Eigh (dynm m h) d w) : ∑ a, w a 0 * w a 0 = 1 := by
  have := congrFun (congrFun e.orth 0) 0
  simpa [Matrix.mul_apply] using this

theorem norm_pos (hm : ∀ a, 0 < m a) (e : Eigh (dynm m h) d w) :
    0 < ∑ b, (w b 0 / √(m b)) ^ 2 := by
  refine lt_of_le_of_ne (sum_nonneg fun b _ => sq_nonneg _) fun h0 => ?_
  have hz := (sum_eq_zero_iff_of_nonneg fun b _ => sq_nonneg (w b 0 / √(m b))).1 h0.symm
  have : ∑ a, w a 0 * w a 0 = 0 := sum_eq_zero fun b hb => by
    have h1 := pow_eq_zero_iff (two_ne_zero) |>.1 (hz b hb)
    have h2 : √(m b) ≠ 0 := (Real.sqrt_pos.2 (hm b)).ne'
    rw [div_eq_zero_iff, or_iff_left h2] at h1
    rw [h1, zero_mul]
  rw [column_norm e] at this
  exact one_ne_zero this

/-- **C156.** The direction of the stretch is a unit vector, and a normal mode of the symmetric part of the
Hessian, with the lowest eigenvalue. -/
theorem imv_mode (hm : ∀ a, 0 < m a) (e : Eigh (dynm m h) d w) (hv : imvector u m d w = .ok v) :
    ∑ a, v a ^ 2 = 1 ∧ ∀ a, ∑ b, (h a b + h b a) / 2 * v b = d 0 * (m a * v a) := by
  have hp := norm_pos hm e
  rw [imv_eq hv]
  generalize hN : ∑ b, (w b 0 / √(m b)) ^ 2 = N at hp ⊢
  have hs : √N ≠ 0 := (Real.sqrt_pos.2 hp).ne'
  constructor
  · simp only [div_pow _ (√N)]
    rw [← sum_div, hN, Real.sq_sqrt hp.le, div_self hp.ne']
  · intro a
    have he := congrFun (congrFun e.eig a) 0
    rw [Matrix.mul_apply, mul_diagonal] at he
    have hma : √(m a) ≠ 0 := (Real.sqrt_pos.2 (hm a)).ne'
    have key : ∀ b, (h a b + h b a) / 2 * (w b 0 / √(m b) / √N)
        = √(m a) / √N * (dynm m h a b * w b 0) := by
      intro b
      have hmb : √(m b) ≠ 0 := (Real.sqrt_pos.2 (hm b)).ne'
      unfold dynm
      field_simp
      ring
    simp only [key]
    rw [← mul_sum, he]
    have : m a = √(m a) * √(m a) := (Real.mul_self_sqrt (hm a).le).symm
    rw [show d 0 * (m a * (w a 0 / √(m a) / √N)) = d 0 * (√(m a) * √(m a) * (w a 0 / √(m a) / √N)) by
      rw [← this]]
    field_simp

/-- **C156.** No direction has a lower curvature relative to its mass. -/
theorem imv_lowest (hm : ∀ a, 0 < m a) (e : Eigh (dynm m h) d w) (x : Fin (n + 1) → ℝ) :
    d 0 * ∑ a, m a * x a ^ 2 ≤ ∑ a, ∑ b, x a * h a b * x b := by
  set y : Fin (n + 1) → ℝ := fun a => √(m a) * x a with hy
  have horth : w * wᵀ = 1 := mul_eq_one_comm.1 e.orth
  have hA : dynm m h = w * diagonal d * wᵀ := by
    rw [← e.eig, Matrix.mul_assoc, horth, Matrix.mul_one]
  set z := wᵀ *ᵥ y with hz
  have hzy : ∑ i, z i ^ 2 = ∑ a, m a * x a ^ 2 := by
    have h1 : z ⬝ᵥ z = y ⬝ᵥ y := by
      rw [hz, dotProduct_mulVec, vecMul_mulVec, transpose_transpose, horth, vecMul_one]
    simp only [dotProduct] at h1
    simp only [pow_two]
    rw [h1]
    refine sum_congr rfl fun a _ => ?_
    rw [hy]
    have := Real.mul_self_sqrt (hm a).le
    dsimp only
    rw [show √(m a) * x a * (√(m a) * x a) = √(m a) * √(m a) * (x a * x a) by ring, this]
  have hq : ∑ a, ∑ b, x a * h a b * x b = y ⬝ᵥ (dynm m h *ᵥ y) := by
    simp only [dotProduct, mulVec, mul_sum]
    have hterm : ∀ a b, y a * (dynm m h a b * y b) = (x a * h a b * x b + x b * h b a * x a) / 2 := by
      intro a b
      have hma : √(m a) ≠ 0 := (Real.sqrt_pos.2 (hm a)).ne'
      have hmb : √(m b) ≠ 0 := (Real.sqrt_pos.2 (hm b)).ne'
      rw [hy]
      unfold dynm
      dsimp only
      field_simp
      ring
    simp only [hterm]
    have hsw : ∑ a, ∑ b, x b * h b a * x a = ∑ a, ∑ b, x a * h a b * x b := sum_comm
    simp only [← sum_div, sum_add_distrib]
    rw [hsw]
    ring
  have hd : y ⬝ᵥ (dynm m h *ᵥ y) = ∑ i, d i * z i ^ 2 := by
    rw [hA, ← mulVec_mulVec, ← mulVec_mulVec, ← hz, dotProduct_mulVec, ← mulVec_transpose, ← hz]
    simp only [dotProduct, mulVec_diagonal]
    exact sum_congr rfl fun i _ => by ring
  rw [hq, hd, ← hzy, mul_sum]
  exact sum_le_sum fun i _ => mul_le_mul_of_nonneg_right (e.sorted (Fin.zero_le i)) (sq_nonneg _)

/-- **C156.** Below the limit of 80 wave numbers the surface falls along the stretch, on both sides. -/
theorem imv_falls (hu : 0 < u) (hm : ∀ a, 0 < m a) (e : Eigh (dynm m h) d w)
    (hv : imvector u m d w = .ok v) (h0 : d 0 ≠ 0) : ∑ a, ∑ b, v a * ((h a b + h b a) / 2) * v b < 0 := by
  obtain ⟨h1, h2⟩ := imv_mode hm e hv
  have hneg : d 0 < 0 := by
    rcases (imv_accepted hu).1 ⟨v, hv⟩ with h | h
    · exact absurd h h0
    · exact (freq_neg hu).1 (by linarith)
  have hs : ∑ a, ∑ b, v a * ((h a b + h b a) / 2) * v b = d 0 * ∑ a, m a * v a ^ 2 := by
    rw [mul_sum]
    refine sum_congr rfl fun a _ => ?_
    simp only [mul_assoc]
    rw [← mul_sum, h2 a]
    ring
  rw [hs]
  refine mul_neg_of_neg_of_pos hneg ?_
  refine lt_of_le_of_ne (sum_nonneg fun a _ => mul_nonneg (hm a).le (sq_nonneg _)) fun hz => ?_
  have hz' := (sum_eq_zero_iff_of_nonneg fun a _ => mul_nonneg (hm a).le (sq_nonneg (v a))).1 hz.symm
  have : ∑ a, v a ^ 2 = 0 := sum_eq_zero fun a ha => by
    rcases mul_eq_zero.1 (hz' a ha) with hh | hh
    · exact absurd hh (hm a).ne'
    · exact hh
  rw [h1] at this
  exact one_ne_zero this

/-- **C156, negated.** A flat mode is accepted as the imaginary one. -/
theorem flat_accepted (hu : 0 < u) (h0 : d 0 = 0) : ∃ v, imvector u m d w = .ok v :=
  (imv_accepted hu).2 (Or.inl h0)

/-- **C156, negated.** A small imaginary frequency is refused with the wrong exception. -/
theorem small_type_error (h0 : -80 < freq u (d 0) ∧ freq u (d 0) < 0) :
    imvector u m d w = .error .type := by
  unfold imvector
  rw [if_pos h0]

/-- One coordinate with negative curvature. -/
example : Eigh (n := 0) (dynm (fun _ => 1) (fun _ _ => -4)) (fun _ => -4) 1 := by
  refine ⟨by simp, ?_, fun _ _ _ => le_refl _⟩
  ext i j
  fin_cases i; fin_cases j
  simp [dynm]

end

/-! ## Beads at which the potential is evaluated -/

section
variable {p v : ℕ → ℝ} {maxms maxe : ℝ}

theorem loop_spec : ∀ (c k : ℕ) (l : List ℕ) (old : ℕ), l.Pairwise (· > ·) → old ∈ l → (∀ i ∈ l, i < k) →
    ∃ t, (keepLoop p v maxms maxe (List.range' k c) (l, old)).1 = t ++ l ∧
      (t ++ l).Pairwise (· > ·) ∧ (∀ i ∈ t, k ≤ i ∧ i < k + c) ∧
      ∀ i, k ≤ i → i < k + c → i ∈ t ∨ ∃ j ∈ t ++ l, j < i ∧ p i - p j ≤ maxms ∧ |v i - v j| ≤ maxe
  | 0, k, l, old, hl, _, _ => by
    refine ⟨[], rfl, hl, fun i hi => by simp at hi, fun i h1 h2 => by omega⟩
  | c + 1, k, l, old, hl, ho, hk => by
    rw [List.range'_succ, keepLoop]
    split
    · obtain ⟨t, h1, h2, h3, h4⟩ := loop_spec c (k + 1) (k :: l) k
        (List.pairwise_cons.2 ⟨fun i hi => hk i hi, hl⟩) (by simp)
        (fun i hi => by rcases List.mem_cons.1 hi with rfl | hi; exacts [by omega, by have := hk i hi; omega])
      refine ⟨t ++ [k], by rw [h1]; simp, by simpa using h2, ?_, ?_⟩
      · intro i hi
        rcases List.mem_append.1 hi with hi | hi
        · have := h3 i hi; omega
        · have : i = k := by simpa using hi
          omega
      · intro i hi1 hi2
        rcases Nat.eq_or_lt_of_le hi1 with rfl | hlt
        · left; simp
        · rcases h4 i hlt (by omega) with h | ⟨j, hj, h⟩
          · left; simp [h]
          · right; exact ⟨j, by simpa using hj, h⟩
    · rename_i hn
      push Not at hn
      obtain ⟨t, h1, h2, h3, h4⟩ := loop_spec c (k + 1) l old hl ho (fun i hi => by have := hk i hi; omega)
      refine ⟨t, h1, h2, fun i hi => by have := h3 i hi; omega, ?_⟩
      intro i hi1 hi2
      rcases Nat.eq_or_lt_of_le hi1 with rfl | hlt
      · right
        exact ⟨old, by simp [ho], hk old ho, hn.1, hn.2⟩
      · exact h4 i hlt (by omega)

/-- **C156.** The beads at which the potential is evaluated: in order and without repetition, the first and
the last among them, and every other bead closer than the limits to one before it that is evaluated. -/
theorem kept_spec (n : ℕ) (hn : 1 ≤ n) :
    (kept p v maxms maxe n).Pairwise (· < ·) ∧ 0 ∈ kept p v maxms maxe n ∧ n - 1 ∈ kept p v maxms maxe n ∧
      (∀ i ∈ kept p v maxms maxe n, i < n) ∧
      ∀ i < n, i ∉ kept p v maxms maxe n →
        ∃ j ∈ kept p v maxms maxe n, j < i ∧ p i - p j ≤ maxms ∧ |v i - v j| ≤ maxe := by
  obtain ⟨t, h1, h2, h3, h4⟩ := loop_spec (p := p) (v := v) (maxms := maxms) (maxe := maxe) (n - 1) 1 [0] 0
    (by simp) (by simp) (by simp)
  have hrev : (t ++ [0]).reverse.Pairwise (· < ·) := List.pairwise_reverse.2 h2
  have hlt : ∀ i ∈ (t ++ [0]).reverse, i < n := by
    intro i hi
    rw [List.mem_reverse] at hi
    rcases List.mem_append.1 hi with hi | hi
    · have := h3 i hi; omega
    · have : i = 0 := by simpa using hi
      omega
  unfold kept
  rw [h1]
  dsimp only
  split
  · rename_i hmem
    refine ⟨hrev, by simp, hmem, hlt, fun i hi hni => ?_⟩
    have hi0 : 1 ≤ i := by
      rcases Nat.eq_zero_or_pos i with rfl | h
      · simp at hni
      · exact h
    rcases h4 i hi0 (by omega) with h | ⟨j, hj, h⟩
    · exact absurd (by simp [h]) hni
    · exact ⟨j, List.mem_reverse.2 hj, h⟩
  · rename_i hmem
    refine ⟨?_, by simp, by simp, ?_, fun i hi hni => ?_⟩
    · refine List.pairwise_append.2 ⟨hrev, by simp, fun i hi j hj => ?_⟩
      have hj' : j = n - 1 := by simpa using hj
      have := hlt i hi
      have hne : i ≠ n - 1 := fun e => hmem (e ▸ hi)
      omega
    · intro i hi
      rcases List.mem_append.1 hi with hi | hi
      · exact hlt i hi
      · have : i = n - 1 := by simpa using hi
        omega
    · have hi0 : 1 ≤ i := by
        rcases Nat.eq_zero_or_pos i with rfl | h
        · simp at hni
        · exact h
      rcases h4 i hi0 (by omega) with h | ⟨j, hj, h⟩
      · exact absurd (by simp [h]) hni
      · exact ⟨j, List.mem_append_left _ (List.mem_reverse.2 hj), h⟩

end

/-! ## Steps -/

section
variable {ι : Type} [Fintype ι] [DecidableEq ι] {m : ι → ℝ} {H : Matrix ι ι ℝ} {s : ℝ} {f x : ι → ℝ}

/-- **C156.** The Newton step removes the force of a quadratic surface but for the number added to the
diagonal: what is left is `s` times the mass times the displacement. -/
theorem newton_residual (hm : ∀ i, 0 < m i) (h : NewtonStep m H s f x) (i : ι) :
    f i - (H *ᵥ x) i = s * (m i * x i) := by
  obtain ⟨y, hy, rfl⟩ := h
  have hi := congrFun hy i
  simp only [mulVec, dotProduct, weighted, mw, add_mul, sum_add_distrib, ite_mul, zero_mul, sum_ite_eq,
    mem_univ, if_true] at hi
  have hmi : √(m i) ≠ 0 := (Real.sqrt_pos.2 (hm i)).ne'
  have key : ∑ j, H i j / (√(m i) * √(m j)) * y j = (∑ j, H i j * (y j / √(m j))) / √(m i) := by
    rw [sum_div]
    refine sum_congr rfl fun j _ => ?_
    have hmj : √(m j) ≠ 0 := (Real.sqrt_pos.2 (hm j)).ne'
    field_simp
  rw [key] at hi
  simp only [mulVec, dotProduct, mw]
  generalize ∑ j, H i j * (y j / √(m j)) = S at hi ⊢
  have hmm : m i * (y i / √(m i)) = √(m i) * y i := by
    rw [← Real.mul_self_sqrt (hm i).le, Real.sqrt_mul_self (Real.sqrt_nonneg _)]
    field_simp
  rw [hmm]
  field_simp at hi
  linarith

/-- **C156.** The Newton step vanishes exactly at stationary points, if the matrix is regular. -/
theorem newton_stationary (hm : ∀ i, 0 < m i) (hr : ∀ y, weighted m H s *ᵥ y = 0 → y = 0)
    (h : NewtonStep m H s f x) : x = 0 ↔ f = 0 := by
  constructor
  · intro hx
    funext i
    have := newton_residual hm h i
    rw [hx] at this
    simpa using this
  · intro hf
    obtain ⟨y, hy, rfl⟩ := h
    have : mw m f = 0 := by
      funext i; simp [mw, hf]
    unfold Solves at hy
    rw [this] at hy
    rw [hr y hy]
    funext i
    simp [mw]

/-- The component of a Lanczos step along a mode. -/
theorem lanczos_mode {sp : Bool} {d0 d1 : ℝ} (hm : ∀ i, 0 < m i) (hs : (weighted m H s).IsSymm)
    {w : ι → ℝ} {d : ℝ} (hw : weighted m H s *ᵥ w = d • w) (hd : d - (shift d0 d1).2 ≠ 0)
    (h : LanczosStep sp m H s d0 d1 f x) :
    w ⬝ᵥ (fun i => √(m i) * x i) = (shift d0 d1).1 * (w ⬝ᵥ mw m f) / (d - (shift d0 d1).2) := by
  obtain ⟨y, hy, rfl⟩ := h
  have e1 : (fun i => √(m i) * mw m ((shift d0 d1).1 • y) i) = (shift d0 d1).1 • y := by
    funext i
    unfold mw
    rw [mul_div_cancel₀ _ (Real.sqrt_pos.2 (hm i)).ne']
  rw [e1, dotProduct_smul, smul_eq_mul]
  unfold Solves at hy
  have e2 : w ⬝ᵥ mw m f = (d - (shift d0 d1).2) * (w ⬝ᵥ y) := by
    rw [← hy, sub_mulVec, dotProduct_sub, smul_mulVec, one_mulVec, dotProduct_smul, smul_eq_mul,
      dotProduct_mulVec, ← mulVec_transpose, hs.eq, hw, smul_dotProduct, smul_eq_mul]
    ring
  rw [e2]
  field_simp

/-- **C156.** A Lanczos step goes against the force along the lowest mode, and with the force along the
others. -/
theorem lanczos_direction {sp : Bool} {κ : Type} {w : κ → ι → ℝ} {d : κ → ℝ} {i k : κ}
    (hm : ∀ i, 0 < m i) (hs : (weighted m H s).IsSymm) (hw : ∀ j, weighted m H s *ᵥ w j = d j • w j)
    (h0 : d i < d k) (hk : ∀ j, j ≠ i → d k ≤ d j) (hb : ¬(d k < 0 ∧ d k = d i / 2))
    (h : LanczosStep sp m H s (d i) (d k) f x) :
    (w i ⬝ᵥ mw m f ≠ 0 → (w i ⬝ᵥ mw m f) * (w i ⬝ᵥ fun a => √(m a) * x a) < 0) ∧
    ∀ j, j ≠ i → w j ⬝ᵥ mw m f ≠ 0 → 0 < (w j ⬝ᵥ mw m f) * (w j ⬝ᵥ fun a => √(m a) * x a) := by
  obtain ⟨ha, hl, hu⟩ := shift_between h0 hb
  constructor
  · intro hf
    have hd : d i - (shift (d i) (d k)).2 < 0 := by linarith
    rw [lanczos_mode hm hs (hw i) hd.ne h, ← mul_div_assoc]
    refine div_neg_of_pos_of_neg ?_ hd
    have := mul_self_pos.2 hf
    calc (0 : ℝ) < (shift (d i) (d k)).1 * ((w i ⬝ᵥ mw m f) * (w i ⬝ᵥ mw m f)) := mul_pos ha this
      _ = _ := by ring
  · intro j hj hf
    have hd : 0 < d j - (shift (d i) (d k)).2 := by linarith [hk j hj]
    rw [lanczos_mode hm hs (hw j) hd.ne' h, ← mul_div_assoc]
    refine div_pos ?_ hd
    have := mul_self_pos.2 hf
    calc (0 : ℝ) < (shift (d i) (d k)).1 * ((w j ⬝ᵥ mw m f) * (w j ⬝ᵥ mw m f)) := mul_pos ha this
      _ = _ := by ring

/-- **C156, negated.** Also for a tunneling splitting, where a minimum is wanted, the Lanczos step goes away
from it: at a displacement `c` along the lowest mode, the step is a positive multiple of `c`. -/
theorem lanczos_splitting {d0 d1 c : ℝ} (hm : ∀ i, 0 < m i) (hs : (weighted m H s).IsSymm) {w : ι → ℝ}
    (hw : weighted m H s *ᵥ w = d0 • w) (h0 : 0 < d0) (h1 : d0 < d1) (hf : w ⬝ᵥ mw m f = -(d0 * c))
    (h : LanczosStep true m H s d0 d1 f x) :
    ∃ t, 0 < t ∧ w ⬝ᵥ (fun i => √(m i) * x i) = t * c := by
  obtain ⟨ha, hl, hu⟩ := shift_between h1 (by rintro ⟨h2, -⟩; linarith)
  have hd : d0 - (shift d0 d1).2 < 0 := by linarith
  refine ⟨(shift d0 d1).1 * d0 / ((shift d0 d1).2 - d0), div_pos (mul_pos ha h0) (by linarith), ?_⟩
  rw [lanczos_mode hm hs hw hd.ne h, hf]
  have h2 : (shift d0 d1).2 - d0 ≠ 0 := by linarith
  have h3 := hd.ne
  generalize (shift d0 d1).2 = q at *
  generalize (shift d0 d1).1 = r at *
  rw [show d0 - q = -(q - d0) by ring, div_neg]
  field_simp

omit [Fintype ι] [DecidableEq ι] in
/-- **C156.** A step that is too long keeps its direction and gets the largest component allowed. -/
theorem shorten_spec {big mx : ℝ} (hb : 0 < big) (hx : IsMax x mx) :
    (∀ i, |shorten big mx x i| ≤ big) ∧ ∃ c : ℝ, 0 < c ∧ c ≤ 1 ∧ shorten big mx x = c • x ∧
      (big < mx → ∃ i, |shorten big mx x i| = big) := by
  unfold shorten
  by_cases h : big < mx
  · have hmx : 0 < mx := hb.trans h
    have hc : 0 < big / mx := div_pos hb hmx
    simp only [if_pos h]
    refine ⟨fun i => ?_, big / mx, hc, (div_le_one hmx).2 h.le, rfl, fun _ => ?_⟩
    · rw [Pi.smul_apply, smul_eq_mul, abs_mul, abs_of_pos hc]
      calc big / mx * |x i| ≤ big / mx * mx := mul_le_mul_of_nonneg_left (hx.1 i) hc.le
        _ = big := div_mul_cancel₀ _ hmx.ne'
    · obtain ⟨i, hi⟩ := hx.2
      exact ⟨i, by rw [Pi.smul_apply, smul_eq_mul, abs_mul, abs_of_pos hc, hi, div_mul_cancel₀ _ hmx.ne']⟩
  · simp only [if_neg h]
    exact ⟨fun i => (hx.1 i).trans (not_lt.1 h), 1, one_pos, le_refl _, (one_smul _ _).symm, fun h' => absurd h' h⟩

/-- One coordinate: a Newton step. -/
example : NewtonStep (fun _ : Fin 1 => (1 : ℝ)) (fun _ _ => 2) 0 (fun _ => 4) (fun _ => 2) := by
  refine ⟨fun _ => 2, ?_, ?_⟩
  · funext i
    simp [mulVec, weighted, mw, dotProduct]
    norm_num
  · funext i; simp [mw]

/-- One coordinate: a Lanczos step, at the displacement 1 from a minimum. -/
example : LanczosStep true (fun _ : Fin 1 => (1 : ℝ)) (fun _ _ => 1) 0 1 4 (fun _ => -1) (fun _ => 2) := by
  have e : shift 1 4 = (1, (2 * 1 + 4) / 4) := by
    unfold shift
    rw [if_pos one_pos, if_pos (by norm_num)]
  refine ⟨fun _ => 2, ?_, ?_⟩
  · rw [e]
    funext i
    have hi : i = 0 := Subsingleton.elim _ _
    subst hi
    simp [mulVec, weighted, mw, dotProduct]
    norm_num
  · rw [e]
    funext i; simp [mw]

end

/-! ## Convergence -/

/-- **C156.** If the forces still change, the end means that all tolerances are met. -/
theorem exit_sound {tolE tolF tolX dE fmax df xmax : ℝ} (h : exits tolE tolF tolX dE fmax df xmax)
    (hd : 1e-8 < df) : |dE| ≤ tolE ∧ fmax ≤ tolF ∧ xmax ≤ tolX := by
  obtain ⟨h1, h2, h3⟩ := h
  exact ⟨h1, h2.resolve_right (not_le.2 hd), h3⟩

/-- **C156, negated.** On a slope of constant force `g` (one atom of one bead) a step of length `big`
within the tolerances of energy and position ends the calculation as converged, whatever the tolerance for the
force. -/
theorem exit_on_slope {g big tolF : ℝ} (hg : 0 < g) (hb : 0 < big) (h : tolF < g) :
    exits (g * big) tolF big (-g * big) g (|g - g|) big ∧ ¬g ≤ tolF := by
  refine ⟨⟨?_, Or.inr ?_, le_refl _⟩, not_le.2 h⟩
  · rw [abs_mul, abs_neg, abs_of_pos hg, abs_of_pos hb]
  · rw [sub_self, abs_zero]; norm_num

/-- Fewer than three beads are refused, three or more are kept. -/
theorem three_beads (p v : ℕ → ℝ) (maxms maxe : ℝ) (n : ℕ) :
    (∃ l, keptChecked p v maxms maxe n = .ok l) ↔ 3 ≤ (kept p v maxms maxe n).length := by
  unfold keptChecked
  split_ifs with h
  · exact ⟨fun ⟨l, hl⟩ => (nomatch hl), fun h3 => by omega⟩
  · exact ⟨fun _ => by omega, fun _ => ⟨_, rfl⟩⟩

end Verif.InstSteps
