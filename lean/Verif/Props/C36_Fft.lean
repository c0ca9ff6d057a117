import Verif.Props.C36_NormalModes

/-!
# C36: the Fourier transform version agrees with the matrix version
-/

namespace Verif.Nm

open Real Finset Verif.Trig

theorem sin_reflect (n i j : ℕ) (hn : 0 < n) (hi : i ≤ n) :
    sin (2 * π * j * (n - i : ℕ) / n) = - sin (2 * π * j * i / n) := by
  have hn' : (n : ℝ) ≠ 0 := by positivity
  have e : 2 * π * j * (n - i : ℕ) / n = (j : ℕ) * (2 * π) - 2 * π * j * i / n := by
    rw [Nat.cast_sub hi]; field_simp
  rw [e, sin_nat_mul_two_pi_sub]

/-- The rows of the matrix in terms of the Fourier coefficients. -/
theorem fwd_rows (n : ℕ) (q : Fin n → ℝ) (i : Fin n) :
    apply (mkNm n) q i
      = amp n i * (if 2 * (i : ℕ) ≤ n then rfftRe n q i else rfftIm n q (n - i)) / √n := by
  have hn : 0 < n := i.pos
  unfold apply mkNm rfftRe rfftIm
  by_cases h : 2 * (i : ℕ) ≤ n
  · rw [if_pos h, Finset.mul_sum, Finset.sum_div]
    refine sum_congr rfl (fun j _ => ?_)
    rw [nmEntry_eq n i j hn, if_pos h, angle]; ring
  · rw [if_neg h, ← Finset.sum_neg_distrib, Finset.mul_sum, Finset.sum_div]
    refine sum_congr rfl (fun j _ => ?_)
    rw [nmEntry_eq n i j hn, if_neg h, sin_reflect n i j hn i.2.le, angle]; ring

theorem sqrt_one_cast : √((1 : ℕ) : ℝ) = 1 := by simp

theorem mkNm_one (i j : Fin 1) : mkNm 1 i j = 1 := by
  have hi : (i : ℕ) = 0 := by omega
  unfold mkNm nmEntry
  simp [hi]

theorem mkONm_one (i j : Fin 1) : mkONm 1 i j = 1 := by
  have hi : (i : ℕ) = 0 := by omega
  unfold mkONm oEntry
  simp [hi]

/-- With two beads the open path matrix is the closed path matrix. -/
theorem mkONm_two : mkONm 2 = mkNm 2 := by
  have s2 : √2 * √2 = (2 : ℝ) := Real.mul_self_sqrt (by norm_num)
  ext i j
  unfold mkONm mkNm
  congr 1
  unfold oEntry nmEntry
  by_cases hi : (i : ℕ) = 0
  · simp [hi]
  · have hi1 : (i : ℕ) = 1 := by omega
    rw [if_neg hi, if_pos (by rw [hi1]; decide), hi1]
    by_cases hj : (j : ℕ) = 0
    · have e : π * (((j : ℕ) : ℝ) + 1 / 2) * ((1 : ℕ) : ℝ) / ((2 : ℕ) : ℝ) = π / 4 := by
        rw [hj]; push_cast; ring
      rw [e, cos_pi_div_four, if_pos (by rw [hj])]
      linarith
    · have hj1 : (j : ℕ) = 1 := by omega
      have e : π * (((j : ℕ) : ℝ) + 1 / 2) * ((1 : ℕ) : ℝ) / ((2 : ℕ) : ℝ) = π - π / 4 := by
        rw [hj1]; push_cast; ring
      rw [e, cos_pi_sub, cos_pi_div_four, if_neg (by rw [hj1]; decide)]
      linarith

theorem fftFwd_eq (n : ℕ) (q : Fin n → ℝ) : fftFwd n q = apply (mkNm n) q := by
  funext i
  have hi := i.2
  by_cases h1 : n = 1
  · subst h1
    unfold fftFwd
    rw [if_pos rfl]
    unfold apply
    rw [Fin.sum_univ_one, mkNm_one, one_mul]
    congr 1
    exact Subsingleton.elim _ _
  · by_cases h2 : n = 2
    · subst h2
      unfold fftFwd
      rw [if_neg h1, if_pos rfl, fwd_rows, if_pos (by omega)]
      unfold amp
      rw [if_pos (by omega), one_mul]
    · unfold fftFwd
      rw [if_neg h1, if_neg h2, fwd_rows]
      unfold amp
      by_cases h0 : (i : ℕ) = 0
      · rw [if_pos h0, if_pos (Or.inl h0), if_pos (by omega), h0, one_mul]
      · rw [if_neg h0]
        by_cases he : n % 2 = 0
        · rw [if_pos he]
          by_cases ha : (i : ℕ) < n / 2
          · rw [if_pos ha, if_neg (by omega), if_pos (by omega)]; ring
          · rw [if_neg ha]
            by_cases hb : (i : ℕ) = n / 2
            · rw [if_pos hb, if_pos (by omega), if_pos (by omega), hb, one_mul]
            · rw [if_neg hb, if_neg (by omega), if_neg (by omega)]; ring
        · rw [if_neg he]
          by_cases ha : (i : ℕ) < n / 2 + 1
          · rw [if_pos ha, if_neg (by omega), if_pos (by omega)]; ring
          · rw [if_neg ha, if_neg (by omega), if_neg (by omega)]; ring

/-- A sum over all modes, pairing the modes `k` and `n - k`. -/
theorem pair_sum (n : ℕ) (hn : 0 < n) (g : ℕ → ℝ) :
    ∑ i ∈ range n, g i = g 0 + ∑ k ∈ range ((n - 1) / 2), (g (k + 1) + g (n - (k + 1)))
      + (if n % 2 = 0 then g (n / 2) else 0) := by
  rcases Nat.even_or_odd n with ⟨m, hm⟩ | ⟨m, hm⟩
  · obtain ⟨l, rfl⟩ : ∃ l, m = l + 1 := ⟨m - 1, by omega⟩
    have h1 : (n - 1) / 2 = l := by omega
    have h2 : n / 2 = l + 1 := by omega
    have h3 : n % 2 = 0 := by omega
    rw [h1, h2, if_pos h3, sum_add_distrib]
    have h4 : n = (1 + l) + (1 + l) := by omega
    have h5 : ∑ k ∈ range l, g (n - (k + 1)) = ∑ k ∈ range l, g (l + 2 + k) := by
      rw [← sum_range_reflect]
      refine sum_congr rfl (fun k hk => ?_)
      have := mem_range.1 hk
      congr 1; omega
    rw [h5]
    conv => lhs; rw [h4]
    rw [sum_range_add, show (1 + l) = l + 1 from by omega, sum_range_succ', sum_range_succ']
    have h6 : ∑ k ∈ range l, g (l + 1 + (k + 1)) = ∑ k ∈ range l, g (l + 2 + k) := by
      refine sum_congr rfl (fun k _ => ?_)
      congr 1; omega
    rw [h6, add_zero]
    ring
  · have h1 : (n - 1) / 2 = m := by omega
    have h3 : ¬ n % 2 = 0 := by omega
    rw [h1, if_neg h3, sum_add_distrib, add_zero]
    have h5 : ∑ k ∈ range m, g (n - (k + 1)) = ∑ k ∈ range m, g (m + 1 + k) := by
      rw [← sum_range_reflect]
      refine sum_congr rfl (fun k hk => ?_)
      have := mem_range.1 hk
      congr 1; omega
    rw [h5]
    have h4 : n = (m + 1) + m := by omega
    conv => lhs; rw [h4]
    rw [sum_range_add, sum_range_succ']
    ring

theorem fftBwd_eq (n : ℕ) (x : Fin n → ℝ) : fftBwd n x = apply (mkNm n).transpose x := by
  funext j
  have hn : 0 < n := j.pos
  have hn' : (0 : ℝ) < n := by exact_mod_cast hn
  by_cases h1 : n = 1
  · subst h1
    unfold fftBwd
    rw [if_pos rfl]
    unfold apply
    rw [Fin.sum_univ_one, Matrix.transpose_apply, mkNm_one, one_mul]
    congr 1
    exact Subsingleton.elim _ _
  · unfold fftBwd
    rw [if_neg h1]
    set y : ℕ → ℝ := fun i => if h : i < n then x ⟨i, h⟩ else 0 with hy
    have hyi : ∀ i : Fin n, y i = x i := by
      intro i; simp only [hy]; rw [dif_pos i.2]
    have hs : √(n : ℝ) * √n = n := Real.mul_self_sqrt hn'.le
    have hs0 : √(n : ℝ) ≠ 0 := (Real.sqrt_pos.2 hn').ne'
    have hA : apply (mkNm n).transpose x j = (∑ i ∈ range n, nmEntry n i j * y i) / √n := by
      unfold apply
      rw [← Fin.sum_univ_eq_sum_range (fun i => nmEntry n i j * y i) n, Finset.sum_div]
      refine sum_congr rfl (fun i _ => ?_)
      rw [Matrix.transpose_apply, hyi]
      unfold mkNm
      ring
    have s2 : √(1 / 2) * 2 = √(2 : ℝ) := by
      rw [show (1 / 2 : ℝ) = 2⁻¹ by norm_num, Real.sqrt_inv]
      have : √2 * √2 = (2 : ℝ) := Real.mul_self_sqrt (by norm_num)
      have h0 : √(2 : ℝ) ≠ 0 := by positivity
      field_simp
      linarith
    have hB : irfft n (bwdRe n y) (bwdIm n y) j * n = ∑ i ∈ range n, nmEntry n i j * y i := by
      unfold irfft
      rw [div_mul_cancel₀ _ hn'.ne', pair_sum n hn]
      congr 1
      · congr 1
        · -- mode 0
          have : nmEntry n 0 j = 1 := by
            unfold nmEntry
            rw [if_neg (by omega), if_pos rfl]
          rw [this, one_mul]
          unfold bwdRe
          by_cases h2 : n = 2
          · rw [if_pos h2]
          · rw [if_neg h2, if_pos rfl]
        · refine sum_congr rfl (fun k hk => ?_)
          have hk' := mem_range.1 hk
          have hn2 : n ≠ 2 := by omega
          have e1 : nmEntry n (k + 1) j = √2 * cos (2 * π * j * (k + 1 : ℕ) / n) := by
            unfold nmEntry
            rw [if_neg (by omega), if_neg (by omega), if_pos (by omega)]
          have e2 : nmEntry n (n - (k + 1)) j = - (√2 * sin (2 * π * j * (k + 1 : ℕ) / n)) := by
            unfold nmEntry
            rw [if_neg (by omega), if_neg (by omega), if_neg (by omega),
              sin_reflect n (k + 1) j hn (by omega)]
            ring
          rw [e1, e2]
          unfold bwdRe bwdIm
          rw [if_neg hn2, if_neg hn2, if_neg (by omega), if_neg (by omega), if_neg (by omega),
            if_neg (by omega), ← s2]
          ring
      · by_cases he : n % 2 = 0
        · rw [if_pos he, if_pos he]
          have e1 : nmEntry n (n / 2) j = if (j : ℕ) % 2 = 0 then 1 else -1 := by
            unfold nmEntry
            rw [if_pos ⟨he, rfl⟩]
          rw [e1]
          have : bwdRe n y (n / 2) = y (n / 2) := by
            unfold bwdRe
            by_cases h2 : n = 2
            · rw [if_pos h2]
            · rw [if_neg h2, if_neg (by omega), if_pos ⟨he, rfl⟩]
          rw [this]; ring
        · rw [if_neg he, if_neg he]
    rw [hA, ← hB]
    show irfft n (bwdRe n y) (bwdIm n y) j * √n = _
    rw [eq_div_iff hs0, mul_assoc, hs]

/-- **C36.** The Fourier transform version of the forward transform gives the same as the
matrix version, for every number of beads, every array and every set of open paths. -/
theorem fft_b2nm {n m : ℕ} (op : List ℕ) (q : Arr n m) : fftB2nm op q = b2nm op q := by
  funext i c
  unfold fftB2nm b2nm
  by_cases h12 : n = 1 ∨ n = 2
  · rw [if_pos h12, fftFwd_eq]
    have : mkONm n = mkNm n := by
      rcases h12 with h | h
      · subst h; ext i j; rw [mkNm_one, mkONm_one]
      · subst h; exact mkONm_two
    rw [this, ite_self]
  · rw [if_neg h12, fftFwd_eq]

/-- **C36.** The same for the backward transform. -/
theorem fft_nm2b {n m : ℕ} (op : List ℕ) (q : Arr n m) : fftNm2b op q = nm2b op q := by
  funext i c
  unfold fftNm2b nm2b
  by_cases h12 : n = 1 ∨ n = 2
  · rw [if_pos h12, fftBwd_eq]
    have : mkONm n = mkNm n := by
      rcases h12 with h | h
      · subst h; ext i j; rw [mkNm_one, mkONm_one]
      · subst h; exact mkONm_two
    rw [this, ite_self]
  · rw [if_neg h12, fftBwd_eq]

/-- The centroid of a closed or open path is the first mode divided by `√n`. -/
theorem centroid_mode {n m : ℕ} (op : List ℕ) (q : Arr n m) (hn : 0 < n) (c : Fin m) :
    b2nm op q ⟨0, hn⟩ c / √n = (∑ j, q j c) / n := by
  have hn' : (0 : ℝ) < n := by exact_mod_cast hn
  have hs : √(n : ℝ) * √n = n := Real.mul_self_sqrt hn'.le
  have e : b2nm op q ⟨0, hn⟩ c = (∑ j, q j c) / √n := by
    unfold b2nm apply
    have e1 : ∀ j : Fin n, mkONm n ⟨0, hn⟩ j = 1 / √n := by
      intro j; unfold mkONm oEntry; simp
    have e2 : ∀ j : Fin n, mkNm n ⟨0, hn⟩ j = 1 / √n := by
      intro j
      unfold mkNm nmEntry
      simp only
      rw [if_neg (by omega), if_pos trivial]
    by_cases h : (c : ℕ) / 3 ∈ op
    · rw [if_pos h, Finset.sum_div]
      exact sum_congr rfl (fun j _ => by rw [e1]; ring)
    · rw [if_neg h, Finset.sum_div]
      exact sum_congr rfl (fun j _ => by rw [e2]; ring)
  rw [e, div_div, hs]

/-! ## A concrete case: the displacement of one of three beads -/

example : ringSpring (n := 3) (fun j => if j = 0 then 1 else 0) = 2 := by
  unfold ringSpring
  rw [Fin.sum_univ_three]
  have a : next (0 : Fin 3) = 1 := by decide
  have b : next (1 : Fin 3) = 2 := by decide
  have c : next (2 : Fin 3) = 0 := by decide
  have e : ¬ (2 : Fin 3) = 0 := by decide
  rw [a, b, c]
  norm_num [e]

example : chainSpring (m := 2) (fun j => if j = 0 then 1 else 0) = 1 := by
  unfold chainSpring
  rw [Fin.sum_univ_two]
  have a : (0 : Fin 2).succ = (1 : Fin 3) := by decide
  have b : (1 : Fin 2).succ = (2 : Fin 3) := by decide
  have c : (0 : Fin 2).castSucc = (0 : Fin 3) := by decide
  have d : (1 : Fin 2).castSucc = (1 : Fin 3) := by decide
  have e : ¬ (2 : Fin 3) = 0 := by decide
  rw [a, b, c, d]
  norm_num [e]

/-- With one open and one closed atom both kinds of columns occur. -/
example : (0 : ℕ) / 3 ∈ [0] ∧ ¬ (3 : ℕ) / 3 ∈ [0] := by decide

end Verif.Nm
