import Verif.Props.C157_InstRate

/-!
# C158: the quantities for a tunnelling splitting

What the post-processing prints for a splitting.  The modes of the reference are those of a linear polymer with
fixed ends, and the product of its frequencies is known in closed form; but the eigenvalues of the minimum are
squared once more, the mode left out is the second one also where the lowest is the soft one, and zeros that were
not removed are added to the list of frequencies.
-/

namespace Verif.InstPost

open Finset

theorem sin_step (x δ : ℝ) : 2 * Real.sin x - Real.sin (x + δ) - Real.sin (x - δ) = 4 * Real.sin (δ / 2) ^ 2 * Real.sin x := by
  have h : Real.cos δ = 1 - 2 * Real.sin (δ / 2) ^ 2 := by
    have := Real.cos_two_mul (δ / 2)
    rw [show 2 * (δ / 2) = δ by ring] at this
    have := Real.sin_sq_add_cos_sq (δ / 2)
    linarith
  rw [Real.sin_add, Real.sin_sub, h]; ring

/-- The springs added for a splitting are those of a linear polymer both ends of which are tied to fixed points, and the
frequencies of the reference are those of this polymer: standing waves are its modes, with `4 sin²((k+1)π/(2N+2))`. -/
theorem linear_modes (n : ℕ) (hn : 2 ≤ n) (k i : ℕ) (hi : i < n) :
    ∑ j ∈ range n, lapRing false n i j * Real.sin ((k + 1) * Real.pi / (n + 1) * (j + 1))
      = 4 * Real.sin ((k + 1) * Real.pi / (2 * n + 2)) ^ 2 * Real.sin ((k + 1) * Real.pi / (n + 1) * (i + 1)) := by
  have hn0 : (n : ℝ) + 1 ≠ 0 := by positivity
  set v : ℕ → ℝ := fun j => Real.sin ((k + 1) * Real.pi / (n + 1) * (j + 1)) with hv
  have up : (if i + 1 < n then v (i + 1) else if (false : Bool) = true then v 0 else 0) = Real.sin ((k + 1) * Real.pi / (n + 1) * (i + 1) + (k + 1) * Real.pi / (n + 1)) := by
    by_cases h : i + 1 < n
    · rw [if_pos h, hv]; dsimp only; congr 1; push_cast; ring
    · rw [if_neg h, if_neg Bool.false_ne_true]
      have hi' : (i : ℝ) = n - 1 := by
        have : n = i + 1 := by omega
        rw [this]; push_cast; ring
      have : (k + 1) * Real.pi / (n + 1) * (i + 1) + (k + 1) * Real.pi / (n + 1) = (k + 1 : ℕ) * Real.pi := by
        rw [hi']; push_cast; field_simp; ring
      rw [this, Real.sin_nat_mul_pi]
  have down : (if 0 < i then v (i - 1) else if (false : Bool) = true then v (n - 1) else 0) = Real.sin ((k + 1) * Real.pi / (n + 1) * (i + 1) - (k + 1) * Real.pi / (n + 1)) := by
    by_cases h : 0 < i
    · rw [if_pos h, hv]; dsimp only; congr 1; rw [Nat.cast_sub (by omega)]; push_cast; ring
    · rw [if_neg h, if_neg Bool.false_ne_true]
      have h0 : i = 0 := by omega
      subst h0
      have : (k + 1) * Real.pi / (n + 1) * (((0 : ℕ) : ℝ) + 1) - (k + 1) * Real.pi / (n + 1) = 0 := by push_cast; ring
      rw [this, Real.sin_zero]
  have := lap_sum false n hn v i hi
  rw [up, down] at this
  rw [this, sin_step]
  congr 3
  field_simp

/-- The product of the terms of the reference: `sinh ((N + 1) θ) / sinh θ` with `2 sinh (θ / 2) = betaP ω`. -/
theorem linear_prod (N : ℕ) (θ : ℝ) (hθ : 0 < θ) :
    ∏ k ∈ range N, (4 * Real.sin ((k + 1) * Real.pi / (2 * N + 2)) ^ 2 + (2 * Real.sinh (θ / 2)) ^ 2) = Real.sinh ((N + 1) * θ) / Real.sinh θ := by
  set c := (2 * Real.sinh (θ / 2)) ^ 2 with hc
  set P := ∏ k ∈ range N, (4 * Real.sin ((k + 1) * Real.pi / (2 * N + 2)) ^ 2 + c) with hP
  have hs : 0 < Real.sinh (θ / 2) := Real.sinh_pos_iff.mpr (by positivity)
  have hcp : 0 < c := by rw [hc]; positivity
  have hPp : 0 < P := prod_pos fun k _ => by positivity
  have hr := ring_prod (N + (1 + (1 + N))) (by omega) θ
  rw [← hc] at hr
  have hcast : ((N + (1 + (1 + N)) : ℕ) : ℝ) = 2 * N + 2 := by push_cast; ring
  have h0 : (2 * N + 2 : ℝ) ≠ 0 := by positivity
  rw [hcast] at hr
  have e1 : ∏ k ∈ range (N + (1 + (1 + N))), (4 * Real.sin (k * Real.pi / (2 * N + 2)) ^ 2 + c) = c * (4 + c) * P ^ 2 := by
    have e : N + (1 + (1 + N)) = 1 + (N + (1 + N)) := by ring
    rw [e, prod_range_add, prod_range_add, prod_range_add, prod_range_one, prod_range_one]
    have a1 : ∏ k ∈ range N, (4 * Real.sin (((1 + k : ℕ) : ℝ) * Real.pi / (2 * N + 2)) ^ 2 + c) = P := by
      rw [hP]; refine prod_congr rfl fun k _ => ?_
      rw [show ((1 + k : ℕ) : ℝ) = k + 1 by push_cast; ring]
    have a2 : ∏ k ∈ range N, (4 * Real.sin (((1 + (N + (1 + k)) : ℕ) : ℝ) * Real.pi / (2 * N + 2)) ^ 2 + c) = P := by
      rw [hP, ← prod_range_reflect]; refine prod_congr rfl fun k hk => ?_
      have hk' := mem_range.mp hk
      congr 3
      rw [← Real.sin_pi_sub]
      congr 1
      rw [show 1 + (N + (1 + (N - 1 - k))) = 2 * N + 1 - k by omega, Nat.cast_sub (by omega)]
      push_cast; field_simp; ring
    have a3 : Real.sin (((1 + (N + 0) : ℕ) : ℝ) * Real.pi / (2 * N + 2)) = 1 := by
      rw [← Real.sin_pi_div_two]; congr 1; push_cast; field_simp; ring
    rw [a1, a2, a3]; simp; ring
  rw [e1] at hr
  have hl : c * (4 + c) = (2 * Real.sinh θ) ^ 2 := by
    have h2 : Real.sinh θ = 2 * Real.sinh (θ / 2) * Real.cosh (θ / 2) := by rw [← Real.sinh_two_mul]; congr 1; ring
    have h3 := Real.cosh_sq (θ / 2)
    rw [hc, h2, mul_pow, mul_pow, mul_pow, mul_pow, h3]; ring
  have hsθ : 0 < Real.sinh θ := Real.sinh_pos_iff.mpr hθ
  have hsN : 0 < Real.sinh ((N + 1) * θ) := Real.sinh_pos_iff.mpr (by positivity)
  rw [hl, ← mul_pow, show (2 * (N : ℝ) + 2) * θ / 2 = (N + 1) * θ by ring] at hr
  have := (pow_left_inj₀ (by positivity) (by positivity) two_ne_zero).mp hr
  rw [eq_div_iff hsθ.ne']
  linarith

/-- The sum of logarithms for one eigenvalue of the minimum, in closed form. -/
theorem reference_exact (betaP : ℝ) (hb : 0 < betaP) (N : ℕ) (w : ℝ) (hw : 0 < w) :
    2 * (rpSplit betaP N w + N * Real.log betaP)
      = Real.log (Real.sinh ((N + 1) * (2 * Real.arsinh (betaP * √w / 2))) / Real.sinh (2 * Real.arsinh (betaP * √w / 2))) := by
  have hθ : 0 < Real.arsinh (betaP * √w / 2) := Real.arsinh_pos_iff.mpr (by have := Real.sqrt_pos.mpr hw; positivity)
  rw [← linear_prod N _ (by positivity), show 2 * Real.arsinh (betaP * √w / 2) / 2 = Real.arsinh (betaP * √w / 2) by ring, Real.sinh_arsinh,
    show 2 * (betaP * √w / 2) = betaP * √w by ring, Real.log_prod (fun k _ => by positivity)]
  have hN : (N : ℝ) * Real.log betaP = ∑ _k ∈ range N, Real.log betaP := by rw [sum_const, card_range, nsmul_eq_mul]
  rw [hN, rpSplit, ← sum_add_distrib, mul_sum]
  refine sum_congr rfl fun k _ => ?_
  have hp : 0 < 4 / betaP ^ 2 * Real.sin ((k + 1) * Real.pi / (2 * N + 2)) ^ 2 + w := by positivity
  have hl : ∀ y : ℝ, 2 * Real.log y = Real.log (y ^ 2) := fun y => by rw [Real.log_pow]; norm_num
  rw [← Real.log_mul (Real.sqrt_pos.mpr hp).ne' hb.ne', hl, mul_pow, Real.sq_sqrt hp.le, mul_pow, Real.sq_sqrt hw.le]
  congr 1
  field_simp

/-! ## What is not as it should be -/

theorem rpSplit_mono (betaP : ℝ) (hb : 0 < betaP) (N : ℕ) (hN : 0 < N) (w w' : ℝ) (hw : 0 ≤ w) (h : w < w') : rpSplit betaP N w < rpSplit betaP N w' := by
  have hs : ∀ k ∈ range N, 0 < Real.sin ((k + 1) * Real.pi / (2 * N + 2)) := by
    intro k hk
    have hk' : (k : ℝ) + 1 ≤ N := by exact_mod_cast mem_range.mp hk
    refine Real.sin_pos_of_pos_of_lt_pi (by positivity) ?_
    rw [div_lt_iff₀ (by positivity), mul_comm Real.pi]
    exact mul_lt_mul_of_pos_right (by linarith [show (0 : ℝ) ≤ N by positivity]) Real.pi_pos
  refine sum_lt_sum_of_nonempty ⟨0, mem_range.mpr hN⟩ fun k hk => ?_
  have := hs k hk
  refine Real.log_lt_log (Real.sqrt_pos.mpr (by positivity)) (Real.sqrt_lt_sqrt (by positivity) (by linarith))

/-- The reference is computed from the squares of the eigenvalues in the file that the case `reactant` writes.  For a minimum
with one eigenvalue it is right only if this is zero or one in atomic units. -/
theorem squared_again (betaP : ℝ) (hb : 0 < betaP) (N : ℕ) (hN : 0 < N) (w : ℝ) (hw : 0 ≤ w) :
    react betaP N (fun _ : Fin 1 => w) = rpSplit betaP N w ↔ w = 0 ∨ w = 1 := by
  have e : react betaP N (fun _ : Fin 1 => w) = rpSplit betaP N (w ^ 2) := by
    unfold react
    rw [Fin.sum_univ_one]
    by_cases h0 : w = 0
    · simp [h0]
    · rw [if_neg (not_lt.mpr hw), if_neg h0, one_mul]
  rw [e]
  constructor
  · intro h
    have hsq : w ^ 2 = w := by
      rcases lt_trichotomy (w ^ 2) w with hl | hl | hl
      · exact absurd h (rpSplit_mono betaP hb N hN _ _ (by positivity) hl).ne
      · exact hl
      · exact absurd h (rpSplit_mono betaP hb N hN _ _ hw hl).ne'
    have : w * (w - 1) = 0 := by linear_combination hsq
    rcases mul_eq_zero.mp this with h | h
    · exact Or.inl h
    · exact Or.inr (by linarith)
  · rintro (rfl | rfl) <;> norm_num

/-- Vibrations have eigenvalues far below one in atomic units, so the reference comes out too small. -/
theorem reference_too_small {D : ℕ} (betaP : ℝ) (hb : 0 < betaP) (N : ℕ) (hN : 0 < N) (w : Fin (D + 1) → ℝ) (hw : ∀ n, 0 < w n ∧ w n < 1) :
    react betaP N w < ∑ n, rpSplit betaP N (w n) := by
  unfold react
  refine sum_lt_sum_of_nonempty ⟨0, mem_univ _⟩ fun n _ => ?_
  obtain ⟨h0, h1⟩ := hw n
  rw [if_neg (not_lt.mpr h0.le), if_neg h0.ne', one_mul]
  exact rpSplit_mono betaP hb N hN _ _ (by positivity) (by nlinarith)

/-- The numbers are those of the file written before: what is read back are the zeros and the eigenvalues themselves. -/
theorem file_holds_eigenvalues (nz : ℕ) (d : List ℝ) (i : ℕ) (hi : i < d.length) : (eigenFile nz d)[nz + i]? = some d[i] := by
  unfold eigenFile
  rw [List.getElem?_append_right (by simp)]
  simp [hi]

/-- For a path of least action no eigenvalue is negative and the soft one is the first.  It is kept, and the next is left out:
the value does not depend on the second, and goes to minus infinity with the first. -/
theorem soft_mode_kept (x : ℝ) (d : List ℝ) (K : ℝ) : ∃ a : ℝ, 0 < a ∧ instSplit (a :: x :: d) < K := by
  set S := (d.map fun x => Real.log √|x|).sum with hS
  refine ⟨Real.exp (2 * (K - S - 1)), Real.exp_pos _, ?_⟩
  have h2 : √|Real.exp (2 * (K - S - 1))| = Real.exp (K - S - 1) := by
    rw [abs_of_pos (Real.exp_pos _), show Real.exp (2 * (K - S - 1)) = Real.exp (K - S - 1) ^ 2 by rw [← Real.exp_nat_mul]; norm_num]
    exact Real.sqrt_sq (Real.exp_pos _).le
  have : instSplit (Real.exp (2 * (K - S - 1)) :: x :: d) = (K - S - 1) + S := by
    rw [instSplit, List.eraseIdx_cons_succ, List.eraseIdx_cons_zero, List.map_cons, List.sum_cons, h2, Real.log_exp]
  rw [this]; linarith

/-- No mode is removed for a splitting, but the number of zero modes asked for is still written first: the file of frequencies
has that many rows too many. -/
theorem extra_zero_rows (asr : String) (modes : ℕ) : freqRows (nzerosOf asr) 0 modes = modes + nzerosOf asr := by
  unfold freqRows; omega

example : freqRows (nzerosOf "poly") 0 27 = 33 := rfl

/-- For the other cases the number of rows is the number of modes. -/
theorem rows_complete (asr : String) (modes : ℕ) (h : nzerosOf asr ≤ modes) : freqRows (nzerosOf asr) (nzerosOf asr) modes = modes := by
  unfold freqRows; omega

end Verif.InstPost
