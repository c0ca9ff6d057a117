/-
C123: The autocorrelation functions and spectra that are printed.
-/
import Verif.Tools.Acf
import Mathlib.Tactic.LinearCombination
import Mathlib.Tactic.Positivity
import Mathlib.Tactic.FieldSimp
import Mathlib.Tactic.NormNum

namespace Verif.Acf

open Real Finset Verif.Trig

/-! ### Specification -/

/-- The sum of the products of the values `t` frames apart within a block of `n` frames. -/
noncomputable def lagged (n : ℕ) (x : ℕ → ℝ) (t : ℕ) : ℝ := ∑ i ∈ range (n - t), x i * x (i + t)

/-- The autocorrelation function of a block: the mean over the pairs of frames `t` apart of the
scalar product, summed over the directions and averaged over the atoms, with the factor that the
comment in the code announces. -/
noncomputable def trueAcf (n na : ℕ) (dt : ℝ) (data : ℕ → ℕ → ℝ) (t : ℕ) : ℝ :=
  dt / (2 * π) * ((∑ c ∈ range (3 * na), lagged n (fun i => data i c) t / (n - t : ℕ)) / na)

/-- The mean of the squared length, averaged over the atoms. -/
noncomputable def meanSquare (n na : ℕ) (data : ℕ → ℕ → ℝ) : ℝ :=
  (∑ c ∈ range (3 * na), (∑ i ∈ range n, data i c ^ 2) / n) / na

/-! ### Fourier transforms -/

theorem rfftRe_symm (n : ℕ) (hn : 0 < n) (x : ℕ → ℝ) (j : ℕ) (hj : j ≤ n) :
    rfftRe n x (n - j) = rfftRe n x j := by
  have hn' : (n : ℝ) ≠ 0 := by positivity
  refine sum_congr rfl fun i _ => ?_
  have e : 2 * π * ((n - j : ℕ) : ℝ) * i / n = (i : ℤ) * (2 * π) - 2 * π * j * i / n := by
    push_cast [hj]; field_simp
  rw [e, cos_int_mul_two_pi_sub]

theorem rfftIm_symm (n : ℕ) (hn : 0 < n) (x : ℕ → ℝ) (j : ℕ) (hj : j ≤ n) :
    rfftIm n x (n - j) = - rfftIm n x j := by
  have hn' : (n : ℝ) ≠ 0 := by positivity
  unfold rfftIm
  rw [neg_inj, ← sum_neg_distrib]
  refine sum_congr rfl fun i _ => ?_
  have e : 2 * π * ((n - j : ℕ) : ℝ) * i / n = (i : ℤ) * (2 * π) - 2 * π * j * i / n := by
    push_cast [hj]; field_simp
  rw [e, sin_int_mul_two_pi_sub]; ring

theorem power_symm (n : ℕ) (hn : 0 < n) (x : ℕ → ℝ) (j : ℕ) (hj : j ≤ n) :
    power n x (n - j) = power n x j := by
  rw [power, rfftRe_symm n hn x j hj, rfftIm_symm n hn x j hj, power]; ring

/-- The inverse transform of a symmetric spectrum is the sum over the whole period. -/
theorem irfft_full (h : ℕ) (hh : 0 < h) (a : ℕ → ℝ) (hs : ∀ j ≤ 2 * h, a (2 * h - j) = a j) (t : ℕ) :
    irfft h a t
      = (∑ j ∈ range (2 * h), a j * cos (2 * π * j * t / (2 * h : ℕ))) / (2 * h : ℕ) := by
  have hh' : ((2 * h : ℕ) : ℝ) ≠ 0 := by positivity
  unfold irfft
  congr 1
  set f : ℕ → ℝ := fun j => a j * cos (2 * π * j * t / (2 * h : ℕ)) with hf
  have fs : ∀ j ≤ 2 * h, f (2 * h - j) = f j := by
    intro j hj
    simp only [hf]
    rw [hs j hj]
    have e : 2 * π * ((2 * h - j : ℕ) : ℝ) * t / (2 * h : ℕ)
        = (t : ℤ) * (2 * π) - 2 * π * j * t / (2 * h : ℕ) := by
      rw [Nat.cast_sub hj]; push_cast at hh' ⊢; field_simp
    rw [e, cos_int_mul_two_pi_sub]
  have split : ∑ j ∈ range (2 * h), f j
      = f 0 + ∑ j ∈ range (h - 1), f (j + 1) + (f h + ∑ j ∈ range (h - 1), f (h + (j + 1))) := by
    have e1 : ∑ j ∈ range (2 * h), f j = ∑ j ∈ range h, f j + ∑ j ∈ range h, f (h + j) := by
      rw [two_mul, sum_range_add]
    obtain ⟨k, rfl⟩ : ∃ k, h = k + 1 := ⟨h - 1, by omega⟩
    rw [e1, sum_range_succ' f, sum_range_succ' (fun j => f (k + 1 + j))]
    simp only [Nat.add_sub_cancel, add_zero]
    ring
  have refl : ∑ j ∈ range (h - 1), f (h + (j + 1)) = ∑ j ∈ range (h - 1), f (j + 1) := by
    rw [← sum_range_reflect]
    refine sum_congr rfl fun j hj => ?_
    have hj' := mem_range.1 hj
    have e : h + (h - 1 - 1 - j + 1) = 2 * h - (j + 1) := by omega
    rw [e, fs _ (by omega)]
  rw [split, refl]
  have e0 : f 0 = a 0 := by simp [hf]
  have e2 : ∑ j ∈ range (h - 1), 2 * a (j + 1) * cos (2 * π * (j + 1 : ℕ) * t / (2 * h : ℕ))
      = 2 * ∑ j ∈ range (h - 1), f (j + 1) := by
    rw [mul_sum]
    refine sum_congr rfl fun j _ => ?_
    simp only [hf]; ring
  have eh : f h = a h * cos (2 * π * h * t / (2 * h : ℕ)) := rfl
  rw [e0, e2, eh]; ring

/-- The square of the transform, as a double sum. -/
theorem power_eq (n : ℕ) (x : ℕ → ℝ) (j : ℕ) :
    power n x j = ∑ i ∈ range n, ∑ k ∈ range n,
      x i * x k * cos (j * (2 * π * ((k : ℤ) - i : ℤ) / n)) := by
  unfold power rfftRe rfftIm
  rw [neg_sq, sq, sq, sum_mul_sum, sum_mul_sum, ← sum_add_distrib]
  refine sum_congr rfl fun i _ => ?_
  rw [← sum_add_distrib]
  refine sum_congr rfl fun k _ => ?_
  have e : (j : ℝ) * (2 * π * ((k : ℤ) - i : ℤ) / n) = 2 * π * j * k / n - 2 * π * j * i / n := by
    push_cast; ring
  rw [e, cos_sub]; ring

theorem per_pick (n : ℕ) (hn : 0 < n) (x : ℕ → ℝ) (i t : ℕ) :
    ∑ k ∈ range n, x k * per n ((k : ℤ) - i - t) = n * x ((i + t) % n) := by
  have hm : (i + t) % n ∈ range n := mem_range.2 (Nat.mod_lt _ hn)
  rw [sum_eq_single_of_mem _ hm]
  · have : (n : ℤ) ∣ (((i + t) % n : ℕ) : ℤ) - i - t := by
      have h := Int.emod_add_mul_ediv ((i : ℤ) + t) n
      refine ⟨-(((i : ℤ) + t) / n), ?_⟩
      push_cast
      linear_combination h
    rw [per, if_pos this]; ring
  · intro k hk hne
    have : ¬ (n : ℤ) ∣ (k : ℤ) - i - t := by
      intro hd
      apply hne
      have hk' := mem_range.1 hk
      have h1 : (k : ℤ) % n = ((i : ℤ) + t) % n :=
        Int.emod_eq_emod_iff_emod_sub_eq_zero.2 (by
          rw [← sub_sub]; exact Int.emod_eq_zero_of_dvd hd)
      have h2 : (k : ℤ) % n = k := Int.emod_eq_of_lt (by positivity) (by exact_mod_cast hk')
      rw [h2] at h1
      have : (((i + t) % n : ℕ) : ℤ) = k := by push_cast; exact h1.symm
      exact_mod_cast this.symm
    rw [per, if_neg this, mul_zero]

/-- The theorem of Wiener and Khinchin for a finite block: the transform of the squares is the
correlation with the block continued periodically. -/
theorem power_cos (n : ℕ) (hn : 0 < n) (x : ℕ → ℝ) (t : ℕ) :
    ∑ j ∈ range n, power n x j * cos (2 * π * j * t / n)
      = n * ∑ i ∈ range n, x i * x ((i + t) % n) := by
  have e1 : ∀ j ∈ range n, power n x j * cos (2 * π * j * t / n)
      = ∑ i ∈ range n, ∑ k ∈ range n, x i * x k *
        (cos (j * (2 * π * ((k : ℤ) - i : ℤ) / n)) * cos (j * (2 * π * (t : ℤ) / n))) := by
    intro j _
    rw [power_eq, sum_mul]
    refine sum_congr rfl fun i _ => ?_
    rw [sum_mul]
    refine sum_congr rfl fun k _ => ?_
    have e : 2 * π * (j : ℝ) * t / n = j * (2 * π * (t : ℤ) / n) := by push_cast; ring
    rw [e]; ring
  rw [sum_congr rfl e1, sum_comm]
  have e2 : ∀ i ∈ range n, ∑ j ∈ range n, ∑ k ∈ range n, x i * x k *
        (cos (j * (2 * π * ((k : ℤ) - i : ℤ) / n)) * cos (j * (2 * π * (t : ℤ) / n)))
      = ∑ k ∈ range n, x i * x k * ((per n ((k : ℤ) - i - t) + per n ((k : ℤ) - i + t)) / 2) := by
    intro i _
    rw [sum_comm]
    refine sum_congr rfl fun k _ => ?_
    rw [← mul_sum, cos_cos n hn]
  rw [sum_congr rfl e2]
  have e3 : ∑ i ∈ range n, ∑ k ∈ range n, x i * x k * per n ((k : ℤ) - i - t)
      = n * ∑ i ∈ range n, x i * x ((i + t) % n) := by
    rw [mul_sum]
    refine sum_congr rfl fun i _ => ?_
    have : ∀ k ∈ range n, x i * x k * per n ((k : ℤ) - i - t) = x i * (x k * per n ((k : ℤ) - i - t)) :=
      fun k _ => by ring
    rw [sum_congr rfl this, ← mul_sum, per_pick n hn]; ring
  have e4 : ∑ i ∈ range n, ∑ k ∈ range n, x i * x k * per n ((k : ℤ) - i + t)
      = n * ∑ i ∈ range n, x i * x ((i + t) % n) := by
    rw [← e3, sum_comm]
    refine sum_congr rfl fun i _ => sum_congr rfl fun k _ => ?_
    have : per n ((i : ℤ) - k + t) = per n ((k : ℤ) - i - t) := by
      unfold per
      have : (n : ℤ) ∣ (i : ℤ) - k + t ↔ (n : ℤ) ∣ (k : ℤ) - i - t := by
        rw [← dvd_neg]
        have : -((i : ℤ) - k + t) = (k : ℤ) - i - t := by ring
        rw [this]
      simp only [this]
    rw [this]; ring
  have e5 : ∑ i ∈ range n, ∑ k ∈ range n,
      x i * x k * ((per n ((k : ℤ) - i - t) + per n ((k : ℤ) - i + t)) / 2)
      = (∑ i ∈ range n, ∑ k ∈ range n, x i * x k * per n ((k : ℤ) - i - t)
        + ∑ i ∈ range n, ∑ k ∈ range n, x i * x k * per n ((k : ℤ) - i + t)) / 2 := by
    rw [← sum_add_distrib, sum_div]
    refine sum_congr rfl fun i _ => ?_
    rw [← sum_add_distrib, sum_div]
    refine sum_congr rfl fun k _ => ?_
    ring
  rw [e5, e3, e4]; ring

/-- The products around the end of the block are those of the lag that is missing to its length. -/
theorem circular_split (n : ℕ) (x : ℕ → ℝ) (t : ℕ) (ht : t ≤ n) :
    ∑ i ∈ range n, x i * x ((i + t) % n) = lagged n x t + lagged n x (n - t) := by
  have e : n = (n - t) + t := by omega
  have h1 : ∑ i ∈ range n, x i * x ((i + t) % n)
      = ∑ i ∈ range (n - t), x i * x ((i + t) % n)
        + ∑ i ∈ range t, x (n - t + i) * x ((n - t + i + t) % n) := by
    conv_lhs => rw [e]
    rw [sum_range_add]
    rw [← e]
  rw [h1]
  unfold lagged
  congr 1
  · refine sum_congr rfl fun i hi => ?_
    have := mem_range.1 hi
    rw [Nat.mod_eq_of_lt (by omega)]
  · rw [show n - (n - t) = t by omega]
    refine sum_congr rfl fun i hi => ?_
    have := mem_range.1 hi
    have : (n - t + i + t) % n = i := by
      rw [show n - t + i + t = i + n by omega, Nat.add_mod_right, Nat.mod_eq_of_lt (by omega)]
    rw [this, add_comm i]; ring

theorem meanPower_symm (n na : ℕ) (hn : 0 < n) (dt : ℝ) (data : ℕ → ℕ → ℝ) (j : ℕ) (hj : j ≤ n) :
    meanPower n na dt data (n - j) = meanPower n na dt data j := by
  unfold meanPower
  simp only [power_symm n hn _ j hj]

/-- For blocks of an even number of frames: the value that is accumulated is the correlation with
the block continued periodically. -/
theorem block_even (h na : ℕ) (hh : 0 < h) (dt : ℝ) (data : ℕ → ℕ → ℝ) (t : ℕ) (ht : t ≤ 2 * h) :
    blockAcf (2 * h) na dt data t
      = dt / (2 * π) * ((∑ c ∈ range (3 * na),
          (lagged (2 * h) (fun i => data i c) t + lagged (2 * h) (fun i => data i c) (2 * h - t))
            / (2 * h : ℕ)) / na) := by
  have hn : 0 < 2 * h := by omega
  unfold blockAcf
  rw [show 2 * h / 2 = h by omega, irfft_full h hh _ (fun j hj => meanPower_symm _ na hn dt data j hj)]
  have e : ∑ j ∈ range (2 * h), meanPower (2 * h) na dt data j * cos (2 * π * j * t / (2 * h : ℕ))
      = 3 * dt / (2 * π) / (2 * h : ℕ) / (3 * na : ℕ) * ∑ c ∈ range (3 * na), ∑ j ∈ range (2 * h),
          power (2 * h) (fun i => data i c) j * cos (2 * π * j * t / (2 * h : ℕ)) := by
    rw [sum_comm, mul_sum]
    refine sum_congr rfl fun j _ => ?_
    unfold meanPower
    rw [← sum_mul]; ring
  rw [e]
  have e2 : ∀ c ∈ range (3 * na), ∑ j ∈ range (2 * h),
        power (2 * h) (fun i => data i c) j * cos (2 * π * j * t / (2 * h : ℕ))
      = (2 * h : ℕ) * (2 * h : ℕ) * ((lagged (2 * h) (fun i => data i c) t
          + lagged (2 * h) (fun i => data i c) (2 * h - t)) / (2 * h : ℕ)) := by
    intro c _
    rw [power_cos _ hn, circular_split _ _ _ ht]
    have : ((2 * h : ℕ) : ℝ) ≠ 0 := by positivity
    field_simp
  rw [sum_congr rfl e2, ← mul_sum]
  generalize ∑ c ∈ range (3 * na), (lagged (2 * h) (fun i => data i c) t
          + lagged (2 * h) (fun i => data i c) (2 * h - t)) / (2 * h : ℕ) = S
  have h2 : ((2 * h : ℕ) : ℝ) ≠ 0 := by positivity
  generalize ((2 * h : ℕ) : ℝ) = N at h2
  rcases Nat.eq_zero_or_pos na with rfl | hna
  · simp
  · have h3 : (na : ℝ) ≠ 0 := by positivity
    push_cast
    have := pi_ne_zero
    field_simp

/-- For blocks of an even number of frames, the value at lag `t` is the mean of the correlations at
lag `t` and at the lag missing to the length of the block, with weights that are the numbers of
pairs. -/
theorem block_mixes (h na : ℕ) (hh : 0 < h) (dt : ℝ) (data : ℕ → ℕ → ℝ) (t : ℕ) (ht : 0 < t)
    (ht' : t < 2 * h) :
    blockAcf (2 * h) na dt data t
      = ((2 * h - t : ℕ) * trueAcf (2 * h) na dt data t + t * trueAcf (2 * h) na dt data (2 * h - t))
        / (2 * h : ℕ) := by
  rw [block_even h na hh dt data t (by omega)]
  unfold trueAcf
  rw [show 2 * h - (2 * h - t) = t by omega]
  have h1 : ((2 * h - t : ℕ) : ℝ) ≠ 0 := by
    have : 2 * h - t ≠ 0 := by omega
    exact_mod_cast this
  have h2 : (t : ℝ) ≠ 0 := by positivity
  have h3 : ((2 * h : ℕ) : ℝ) ≠ 0 := by positivity
  generalize ((2 * h - t : ℕ) : ℝ) = m at h1 ⊢
  generalize ((2 * h : ℕ) : ℝ) = N at h3 ⊢
  rw [← Finset.sum_div, ← Finset.sum_div, ← Finset.sum_div, sum_add_distrib]
  generalize ∑ c ∈ range (3 * na), lagged (2 * h) (fun i => data i c) t = S
  generalize ∑ c ∈ range (3 * na), lagged (2 * h) (fun i => data i c) (2 * h - t) = S'
  rcases Nat.eq_zero_or_pos na with rfl | hna
  · simp
  · have h4 : (na : ℝ) ≠ 0 := by positivity
    have := pi_ne_zero
    field_simp

/-- The value at lag zero is the mean of the squares. -/
theorem block_zero (h na : ℕ) (hh : 0 < h) (dt : ℝ) (data : ℕ → ℕ → ℝ) :
    blockAcf (2 * h) na dt data 0 = dt / (2 * π) * meanSquare (2 * h) na data := by
  rw [block_even h na hh dt data 0 (by omega)]
  unfold meanSquare lagged
  simp [sq]

/-! ### The loop over the blocks -/

theorem accum_spec (bsize : ℕ) (hb : 0 < bsize) (g : List Frame → ℝ) :
    ∀ (fuel : ℕ) (fs : List Frame) (s : ℝ) (n : ℕ), fs.length ≤ fuel →
      accum bsize g fuel fs (s, n)
        = (s + ∑ b ∈ range (fs.length / bsize), g (fs.drop (b * bsize)), n + fs.length / bsize) := by
  intro fuel
  induction fuel with
  | zero =>
    intro fs s n h
    have : fs.length = 0 := by omega
    simp [accum, this]
  | succ fuel ih =>
    intro fs s n h
    rw [accum]
    by_cases hl : fs.length < bsize
    · rw [if_pos hl, Nat.div_eq_of_lt hl]; simp
    · rw [if_neg hl, ih _ _ _ (by rw [List.length_drop]; omega)]
      have hd : fs.length / bsize = (fs.length - bsize) / bsize + 1 := by
        rw [Nat.div_eq fs.length, if_pos ⟨hb, by omega⟩]
      rw [List.length_drop, hd, sum_range_succ']
      have e : ∀ b, (fs.drop bsize).drop (b * bsize) = fs.drop ((b + 1) * bsize) := by
        intro b
        rw [List.drop_drop]; congr 1; ring
      simp only [e, zero_mul, List.drop_zero]
      ext
      · dsimp only; ring
      · dsimp only; omega

/-- What is printed is the mean over the complete blocks after the frames that are skipped. -/
theorem average_blocks (a : Args) (hb : 0 < a.bsize) (g : List Frame → ℝ) (frames : List Frame)
    (hl : a.skip + a.bsize ≤ frames.length) :
    average a g frames = .ok (some ((∑ b ∈ range ((frames.length - a.skip) / a.bsize),
      g (frames.drop (a.skip + b * a.bsize))) / ((frames.length - a.skip) / a.bsize : ℕ))) := by
  unfold average
  rw [if_neg (by omega), accum_spec a.bsize hb g _ _ _ _ (by rw [List.length_drop]; omega)]
  dsimp only
  have hne : (frames.length - a.skip) / a.bsize ≠ 0 := by
    have := Nat.div_pos (show a.bsize ≤ frames.length - a.skip by omega) hb
    omega
  rw [List.length_drop, zero_add, zero_add, if_neg hne]
  simp only [List.drop_drop]

/-- With fewer frames there is no number, or an exception. -/
theorem average_short (a : Args) (hb : 0 < a.bsize) (g : List Frame → ℝ) (frames : List Frame)
    (hl : frames.length < a.skip + a.bsize) (v : ℝ) :
    average a g frames ≠ .ok (some v) := by
  unfold average
  by_cases h : frames.length < a.skip
  · rw [if_pos h]; exact fun h => (nomatch h)
  · rw [if_neg h, accum_spec a.bsize hb g _ _ _ _ (by rw [List.length_drop]; omega)]
    dsimp only
    rw [List.length_drop, Nat.div_eq_of_lt (by omega)]
    simp

/-- The autocorrelation function that is printed, for blocks of an even number of frames. -/
theorem acf_printed (a : Args) (h : ℕ) (hh : 0 < h) (hb : a.bsize = 2 * h) (frames : List Frame)
    (hl : a.skip + a.bsize ≤ frames.length) (t : ℕ) (ht : 0 < t) (ht' : t < 2 * h) :
    acf a frames t = .ok (some ((∑ b ∈ range ((frames.length - a.skip) / a.bsize),
      ((2 * h - t : ℕ) * trueAcf (2 * h) a.na a.dt
          (blockData a.bsize a.dt a.der (frames.drop (a.skip + b * a.bsize))) t
        + t * trueAcf (2 * h) a.na a.dt
          (blockData a.bsize a.dt a.der (frames.drop (a.skip + b * a.bsize))) (2 * h - t))
        / (2 * h : ℕ)) / ((frames.length - a.skip) / a.bsize : ℕ))) := by
  unfold acf
  rw [average_blocks a (by omega) _ frames hl]
  simp only [hb, block_mixes h a.na hh _ _ t ht ht']

/-- The value printed at lag zero, for blocks of an even number of frames. -/
theorem acf_zero (a : Args) (h : ℕ) (hh : 0 < h) (hb : a.bsize = 2 * h) (frames : List Frame)
    (hl : a.skip + a.bsize ≤ frames.length) :
    acf a frames 0 = .ok (some ((∑ b ∈ range ((frames.length - a.skip) / a.bsize),
      a.dt / (2 * π) * meanSquare a.bsize a.na
        (blockData a.bsize a.dt a.der (frames.drop (a.skip + b * a.bsize))))
        / ((frames.length - a.skip) / a.bsize : ℕ))) := by
  unfold acf
  rw [average_blocks a (by omega) _ frames hl]
  simp only [hb, block_zero h a.na hh]

/-- Concrete case: three frames, of which the first is skipped, in blocks of two. -/
example : acf ⟨1, 2, 0, .none, 1, 1, false, 1⟩ [fun _ => 5, fun _ => 1, fun _ => 2] 1
    = .ok (some (1 / (2 * π) * 6)) := by
  rw [acf_printed _ 1 (by omega) rfl _ (by simp) 1 (by omega) (by omega)]
  simp [trueAcf, lagged, blockData, sum_range_succ]
  norm_num

example : acf ⟨1, 2, 0, .none, 1, 1, false, 1⟩ [fun _ => 5, fun _ => 1, fun _ => 2] 0
    = .ok (some (1 / (2 * π) * (3 * (5 / 2)))) := by
  rw [acf_zero _ 1 (by omega) rfl _ (by simp)]
  simp [meanSquare, blockData, sum_range_succ]
  norm_num

example := average_short ⟨1, 2, 0, .none, 1, 1, false, 1⟩ (by decide) (fun _ => 1) [fun _ => 5, fun _ => 1]
  (by decide)

/-- Without derivatives the array holds the frames of the block. -/
theorem blockData_frames (bsize : ℕ) (dt : ℝ) (frames : List Frame) (k i c : ℕ)
    (hk : k + i < frames.length) :
    blockData bsize dt false (frames.drop k) i c = frames[k + i] c := by
  simp [blockData, hk]

/-- The derivative of motion with constant velocity is exact in every frame. -/
theorem gradient_linear (n : ℕ) (dt : ℝ) (hdt : dt ≠ 0) (x0 v : ℝ) (i : ℕ) :
    gradient n dt (fun k => x0 + v * (k * dt)) i = v := by
  unfold gradient
  by_cases h0 : i = 0
  · rw [if_pos h0]; push_cast; field_simp; ring
  · rw [if_neg h0]
    obtain ⟨m, rfl⟩ : ∃ m, i = m + 1 := ⟨i - 1, by omega⟩
    by_cases h1 : m + 1 + 1 = n
    · rw [if_pos h1, Nat.add_sub_cancel]; push_cast; field_simp; ring
    · rw [if_neg h1, Nat.add_sub_cancel]; push_cast; field_simp; ring

/-- Inside a block the derivative of motion with constant acceleration is exact as well. -/
theorem gradient_quadratic (n : ℕ) (dt : ℝ) (hdt : dt ≠ 0) (x0 v f : ℝ) (i : ℕ) (h0 : 0 < i)
    (hi : i + 1 < n) :
    gradient n dt (fun k => x0 + v * (k * dt) + f * (k * dt) ^ 2) i = v + 2 * f * (i * dt) := by
  unfold gradient
  rw [if_neg (by omega), if_neg (by omega)]
  obtain ⟨m, rfl⟩ : ∃ m, i = m + 1 := ⟨i - 1, by omega⟩
  rw [Nat.add_sub_cancel]; push_cast; field_simp; ring

example : gradient 3 0.5 (fun k => 1 + 2 * (k * 0.5)) 2 = 2 := gradient_linear 3 0.5 (by norm_num) 1 2 2

example := gradient_quadratic 3 0.5 (by norm_num) 1 2 3 1 (by decide) (by decide)

example := blockData_frames 2 1 [fun _ => 5, fun _ => 1, fun _ => 2] 1 1 0 (by decide)

/-! ### The spectrum -/

/-- Every window leaves the value at lag zero as it is. -/
theorem window_zero (w : Window) (mlag : ℕ) (hm : 0 < mlag) : window w mlag 0 = 1 := by
  have hm' : (mlag : ℝ) ≠ 0 := by positivity
  have e : 2 * π * ((mlag : ℝ) + (0 : ℕ)) / (2 * mlag + 1 - 1) = π := by push_cast; field_simp; ring
  have e4 : 4 * π * ((mlag : ℝ) + (0 : ℕ)) / (2 * mlag + 1 - 1) = 2 * π := by
    push_cast; field_simp; ring
  cases w <;> simp only [window]
  · rw [e, cos_pi]; norm_num
  · rw [e, cos_pi]; norm_num
  · rw [e, e4, cos_pi, cos_two_pi]; norm_num
  · have : (mlag : ℝ) + (0 : ℕ) - (2 * mlag + 1 - 1) / 2 = 0 := by push_cast; ring
    rw [this, abs_zero]; field_simp; ring

/-- The windows end at zero or, `hamming`, at 0.08. -/
theorem window_last (w : Window) (mlag : ℕ) (hm : 0 < mlag) :
    window w mlag mlag = match w with | .none => 1 | .hamming => 0.08 | _ => 0 := by
  have hm' : (mlag : ℝ) ≠ 0 := by positivity
  have e : 2 * π * ((mlag : ℝ) + mlag) / (2 * mlag + 1 - 1) = 2 * π := by field_simp; ring
  have e4 : 4 * π * ((mlag : ℝ) + mlag) / (2 * mlag + 1 - 1) = 2 * π + 2 * π := by
    field_simp; ring
  cases w <;> simp only [window]
  · rw [e, cos_two_pi]; norm_num
  · rw [e, cos_two_pi]; norm_num
  · rw [e, e4, cos_two_pi, cos_add_two_pi, cos_two_pi]; norm_num
  · have : (mlag : ℝ) + mlag - (2 * mlag + 1 - 1) / 2 = mlag := by ring
    rw [this, abs_of_nonneg (by positivity)]; field_simp; ring

/-- The spectrum is the cosine transform, at the frequencies and times that are printed, of the
autocorrelation function times the window. -/
theorem ft_cosine (a : Args) (hm : 0 < a.mlag) (hdt : a.dt ≠ 0) (c : ℕ → ℝ) (j : ℕ) :
    blockFt a.win a.mlag a.npad c j
      = c 0 + 2 * ∑ t ∈ range a.mlag, (c (t + 1) * window a.win a.mlag (t + 1)
          * cos (omega a j * time a (t + 1)))
        - if a.npad = 0 then c a.mlag * window a.win a.mlag a.mlag * cos (omega a j * time a a.mlag)
          else 0 := by
  have ang : ∀ t : ℕ, 2 * π * (j : ℝ) * t / (2 * (a.mlag + a.npad) : ℕ) = omega a j * time a t := by
    intro t
    have : ((2 * (a.mlag + a.npad) : ℕ) : ℝ) ≠ 0 := by
      have : 2 * (a.mlag + a.npad) ≠ 0 := by omega
      exact_mod_cast this
    unfold omega time
    field_simp
  unfold blockFt hfft
  rw [ang (a.mlag + a.npad)]
  have es : ∑ t ∈ range (a.mlag + a.npad - 1), 2 * padded a.win a.mlag c (t + 1)
        * cos (2 * π * j * (t + 1 : ℕ) / (2 * (a.mlag + a.npad) : ℕ))
      = 2 * ∑ t ∈ range (a.mlag + a.npad - 1), padded a.win a.mlag c (t + 1)
        * cos (omega a j * time a (t + 1)) := by
    rw [mul_sum]
    refine sum_congr rfl fun t _ => ?_
    rw [ang (t + 1)]; ring
  rw [es]
  have e0 : padded a.win a.mlag c 0 = c 0 := by
    rw [padded, if_pos (by omega), window_zero _ _ hm, mul_one]
  rw [e0]
  have lt : ∀ n ≤ a.mlag, ∑ t ∈ range n, padded a.win a.mlag c (t + 1)
        * cos (omega a j * time a (t + 1))
      = ∑ t ∈ range n, c (t + 1) * window a.win a.mlag (t + 1) * cos (omega a j * time a (t + 1)) := by
    intro n hn
    refine sum_congr rfl fun t ht => ?_
    have := mem_range.1 ht
    rw [padded, if_pos (by omega)]
  by_cases hp : a.npad = 0
  · rw [if_pos hp, hp, add_zero, lt _ (by omega)]
    obtain ⟨m, hm'⟩ : ∃ m, a.mlag = m + 1 := ⟨a.mlag - 1, by omega⟩
    have ep : padded a.win a.mlag c a.mlag = c a.mlag * window a.win a.mlag a.mlag := by
      rw [padded, if_pos le_rfl]
    rw [ep]
    have : ∑ t ∈ range a.mlag, c (t + 1) * window a.win a.mlag (t + 1)
          * cos (omega a j * time a (t + 1))
        = ∑ t ∈ range (a.mlag - 1), c (t + 1) * window a.win a.mlag (t + 1)
          * cos (omega a j * time a (t + 1))
          + c a.mlag * window a.win a.mlag a.mlag * cos (omega a j * time a a.mlag) := by
      conv_lhs => rw [show a.mlag = a.mlag - 1 + 1 by omega, sum_range_succ]
      rw [show a.mlag - 1 + 1 = a.mlag by omega]
    rw [this]; ring
  · rw [if_neg hp]
    have ep : padded a.win a.mlag c (a.mlag + a.npad) = 0 := by
      rw [padded, if_neg (by omega)]
    rw [ep, zero_mul, add_zero, sub_zero]
    congr 2
    obtain ⟨m, hm'⟩ : ∃ m, a.npad = m + 1 := ⟨a.npad - 1, by omega⟩
    rw [show a.mlag + a.npad - 1 = a.mlag + m by omega, sum_range_add, lt _ le_rfl]
    have : ∑ t ∈ range m, padded a.win a.mlag c (a.mlag + t + 1)
        * cos (omega a j * time a (a.mlag + t + 1)) = 0 := by
      apply sum_eq_zero
      intro t _
      rw [padded, if_neg (by omega), zero_mul]
    rw [this, add_zero]

/-- The sum over all frequencies is fixed by the value at lag zero: with the distance of the
frequencies it is the mean of the squares. -/
theorem ft_sum (a : Args) (hm : 0 < a.mlag) (c : ℕ → ℝ) :
    ∑ j ∈ range (2 * (a.mlag + a.npad)), blockFt a.win a.mlag a.npad c j
      = (2 * (a.mlag + a.npad) : ℕ) * c 0 := by
  set h := a.mlag + a.npad with hh
  have hpos : 0 < h := by omega
  have hn : 0 < 2 * h := by omega
  have col : ∀ t : ℕ, 0 < t → t ≤ h →
      ∑ j ∈ range (2 * h), cos (2 * π * j * t / (2 * h : ℕ)) = 0 := by
    intro t h0 h1
    have := cos_sum (2 * h) hn (t : ℤ) 0
    have nd : ¬ ((2 * h : ℕ) : ℤ) ∣ (t : ℤ) := by
      intro hd
      have := Nat.le_of_dvd h0 (by exact_mod_cast hd)
      omega
    rw [if_neg nd] at this
    rw [← this]
    refine sum_congr rfl fun j _ => ?_
    congr 1
    push_cast; ring
  unfold blockFt hfft
  rw [sum_add_distrib, sum_add_distrib, sum_comm]
  have z1 : ∑ t ∈ range (h - 1), ∑ j ∈ range (2 * h), 2 * padded a.win a.mlag c (t + 1)
      * cos (2 * π * j * (t + 1 : ℕ) / (2 * h : ℕ)) = 0 := by
    apply sum_eq_zero
    intro t ht
    have := mem_range.1 ht
    rw [← mul_sum, col (t + 1) (by omega) (by omega), mul_zero]
  have z2 : ∑ j ∈ range (2 * h), padded a.win a.mlag c h * cos (2 * π * j * h / (2 * h : ℕ)) = 0 := by
    rw [← mul_sum, col h hpos le_rfl, mul_zero]
  rw [z1, z2]
  have e0 : padded a.win a.mlag c 0 = c 0 := by
    rw [padded, if_pos (by omega), window_zero _ _ hm, mul_one]
  rw [e0]; simp

/-- The other half of the frequencies, which is not written, repeats the first. -/
theorem ft_symm (a : Args) (hm : 0 < a.mlag) (c : ℕ → ℝ) (j : ℕ) (hj : j ≤ 2 * (a.mlag + a.npad)) :
    blockFt a.win a.mlag a.npad c (2 * (a.mlag + a.npad) - j) = blockFt a.win a.mlag a.npad c j := by
  set h := a.mlag + a.npad with hh
  have hn : ((2 * h : ℕ) : ℝ) ≠ 0 := by
    have : 2 * h ≠ 0 := by omega
    exact_mod_cast this
  have ang : ∀ t : ℕ, cos (2 * π * ((2 * h - j : ℕ) : ℝ) * t / (2 * h : ℕ))
      = cos (2 * π * j * t / (2 * h : ℕ)) := by
    intro t
    have e : 2 * π * ((2 * h - j : ℕ) : ℝ) * t / (2 * h : ℕ)
        = (t : ℤ) * (2 * π) - 2 * π * j * t / (2 * h : ℕ) := by
      rw [Nat.cast_sub hj]; field_simp; push_cast; ring
    rw [e, cos_int_mul_two_pi_sub]
  unfold blockFt hfft
  rw [← hh]
  simp only [ang]

example := ft_cosine ⟨2, 4, 1, .hanning, 0.5, 0, false, 1⟩ (by decide) (by norm_num) (fun t => t + 1) 1

example : ∑ j ∈ range 6, blockFt .hanning 2 1 (fun t => t + 7) j = 42 := by
  have := ft_sum ⟨2, 4, 1, .hanning, 0.5, 0, false, 1⟩ (by decide) (fun t => t + 7)
  norm_num at this ⊢
  exact this

example := ft_symm ⟨2, 4, 1, .hanning, 0.5, 0, false, 1⟩ (by decide) (fun t => t + 7) 2 (by decide)

/-! ### What goes wrong -/

/-- The frames `(1, 0, 0, 1)` in one coordinate. -/
def ends : ℕ → ℕ → ℝ := fun i c => if c = 0 ∧ (i = 0 ∨ i = 3) then 1 else 0

/-- No two frames one apart have anything in common, and yet the value printed for lag one is
positive: the last frame of the block is multiplied with the first. -/
theorem wraps_around : trueAcf 4 1 1 ends 1 = 0 ∧ 0 < blockAcf 4 1 1 ends 1 := by
  constructor
  · unfold trueAcf lagged
    simp [sum_range_succ, ends]
  · have := block_even 2 1 (by omega) 1 ends 1 (by omega)
    rw [show 2 * 2 = 4 from rfl] at this
    rw [this]
    unfold lagged
    have : 0 < 1 / (2 * π) := by positivity
    simp [sum_range_succ, ends]
    positivity

/-- A constant signal in blocks of an odd number of frames: every value, the mean square too, is too
large by a factor `bsize / (bsize - 1)`. -/
theorem odd_constant (h : ℕ) (hh : 0 < h) (na : ℕ) (dt v : ℝ) (t : ℕ) :
    blockAcf (2 * h + 1) na dt (fun _ _ => v) t
      = (2 * h + 1 : ℕ) / (2 * h : ℕ) * (dt / (2 * π) * meanSquare (2 * h + 1) na (fun _ _ => v)) := by
  have hn : 0 < 2 * h + 1 := by omega
  have hN : ((2 * h + 1 : ℕ) : ℝ) ≠ 0 := by positivity
  have h2 : ((2 * h : ℕ) : ℝ) ≠ 0 := by positivity
  have p0 : power (2 * h + 1) (fun _ => v) 0 = ((2 * h + 1 : ℕ) * v) ^ 2 := by
    unfold power rfftRe rfftIm
    simp
  have pj : ∀ j, 0 < j → j ≤ h → power (2 * h + 1) (fun _ => v) j = 0 := by
    intro j h0 h1
    have nd : ¬ ((2 * h + 1 : ℕ) : ℤ) ∣ (j : ℤ) := by
      intro hd
      have := Nat.le_of_dvd h0 (by exact_mod_cast hd)
      omega
    have c := cos_sum (2 * h + 1) hn (j : ℤ) 0
    rw [if_neg nd] at c
    have s := sin_sum (2 * h + 1) hn (j : ℤ)
    unfold power rfftRe rfftIm
    rw [← mul_sum, ← mul_sum]
    have e1 : ∑ i ∈ range (2 * h + 1), cos (2 * π * j * i / (2 * h + 1 : ℕ)) = 0 := by
      rw [← c]; refine sum_congr rfl fun i _ => ?_
      congr 1; push_cast; ring
    have e2 : ∑ i ∈ range (2 * h + 1), sin (2 * π * j * i / (2 * h + 1 : ℕ)) = 0 := by
      rw [← s]; refine sum_congr rfl fun i _ => ?_
      congr 1; push_cast; ring
    rw [e1, e2]; simp
  have m0 : meanPower (2 * h + 1) na dt (fun _ _ => v) 0
      = (2 * h + 1 : ℕ) * (dt / (2 * π) * meanSquare (2 * h + 1) na (fun _ _ => v)) := by
    unfold meanPower meanSquare
    simp only [p0, sum_const, card_range, nsmul_eq_mul]
    generalize ((2 * h + 1 : ℕ) : ℝ) = N at hN ⊢
    rcases Nat.eq_zero_or_pos na with rfl | hna
    · simp
    · have h3 : (na : ℝ) ≠ 0 := by positivity
      have := pi_ne_zero
      push_cast
      field_simp
  have mj : ∀ j, 0 < j → j ≤ h → meanPower (2 * h + 1) na dt (fun _ _ => v) j = 0 := by
    intro j h0 h1
    unfold meanPower
    simp only [pj j h0 h1]
    simp
  unfold blockAcf irfft
  rw [show (2 * h + 1) / 2 = h by omega, m0, mj h hh le_rfl]
  have z : ∑ j ∈ range (h - 1), 2 * meanPower (2 * h + 1) na dt (fun _ _ => v) (j + 1)
      * cos (2 * π * (j + 1 : ℕ) * t / (2 * h : ℕ)) = 0 := by
    apply sum_eq_zero
    intro j hj
    have := mem_range.1 hj
    rw [mj (j + 1) (by omega) (by omega)]; ring
  rw [z]; ring

/-- The function takes blocks of an odd number of frames unless it is told otherwise; the command
line takes an even number. -/
theorem sizes_default (m : ℕ) (hm : 0 < m) (npad : ℕ) :
    sizes (some m) none npad = .ok ((m : ℤ), 2 * (m : ℤ) + 1)
      ∧ sizes (some m) (some (-1)) npad = .ok ((m : ℤ), 2 * (m : ℤ)) := by
  have h0 : (m : ℤ) ≠ 0 := by omega
  constructor
  · simp only [sizes, lagOf, blockOf, h0, if_false]
    rw [if_neg (by omega), if_neg (by omega), if_neg (by omega)]
  · simp only [sizes, lagOf, blockOf, h0, if_false]
    rw [if_neg (by omega), if_neg (by omega), if_neg (show ¬ (-1 : ℤ) = 0 by decide),
      if_pos (by omega), if_pos rfl]

/-- Whatever is accepted, all lags that are printed are within half a block. -/
theorem sizes_ok (ml bl : Option ℤ) (npad m b : ℤ) (h : sizes ml bl npad = .ok (m, b)) :
    0 < m ∧ 0 ≤ npad ∧ 2 * m ≤ b ∧ m = lagOf ml := by
  unfold sizes at h
  dsimp only at h
  generalize blockOf (lagOf ml) bl = bs at h
  split at h
  · exact (nomatch h)
  · split at h
    · exact (nomatch h)
    · split at h
      · split at h
        · injection h with h; injection h with h1 h2
          omega
        · exact (nomatch h)
      · injection h with h; injection h with h1 h2
        omega

/-- A lag and a length of the blocks are accepted exactly if the lag is positive and the blocks hold
twice the lag, and then they are used as given. -/
theorem sizes_given (m b npad : ℤ) (hm : m ≠ 0) (hb : b ≠ 0) (hb' : b ≠ -1) :
    (0 < m ∧ 0 ≤ npad ∧ 2 * m ≤ b → sizes (some m) (some b) npad = .ok (m, b))
    ∧ (¬ (0 < m ∧ 0 ≤ npad ∧ 2 * m ≤ b) → ∃ e, sizes (some m) (some b) npad = .error e) := by
  simp only [sizes, lagOf, blockOf, hm, hb, hb', if_false]
  constructor
  · rintro ⟨h1, h2, h3⟩
    rw [if_neg (by omega), if_neg (by omega), if_neg (by omega)]
  · intro h
    split_ifs
    · exact ⟨_, rfl⟩
    · exact ⟨_, rfl⟩
    · exact ⟨_, rfl⟩
    · exact absurd ⟨by omega, by omega, by omega⟩ h

/-- Without a lag, or with lag zero, the correlations are computed up to lag one hundred. -/
theorem sizes_no_lag (npad : ℕ) : sizes none none npad = .ok (100, 201)
    ∧ sizes (some 0) none npad = .ok (100, 201) ∧ sizes none (some 0) npad = .ok (100, 201) := by
  have h : ¬ (npad : ℤ) < 0 := by omega
  simp [sizes, lagOf, blockOf, h]

example : sizes (some 3) (some 8) 0 = .ok (3, 8) ∧ sizes (some 3) (some 5) 0 = .error "LENGTH_BLOCK" :=
  ⟨rfl, rfl⟩

/-- Nothing is converted: if the file has been written in another unit, what is printed is not in
atomic units. -/
theorem units_ignored : ∃ (a : Args) (unit : ℝ) (frames : List Frame), 0 < unit ∧
    acf a (frames.map fun f c => asRead unit (f c)) 0 ≠ acf a (frames.map fun f c => unit * f c) 0 := by
  refine ⟨⟨1, 2, 0, .none, 1, 0, false, 1⟩, 2, [fun _ => 1, fun _ => 1], by norm_num, ?_⟩
  rw [acf_zero _ 1 (by omega) rfl _ (by simp), acf_zero _ 1 (by omega) rfl _ (by simp)]
  simp [meanSquare, blockData, asRead, sum_range_succ]
  norm_num

/-- Without padding the largest lag that was asked for is not written. -/
theorem last_lag (a : Args) : rowsAcf a = a.mlag + 1 ↔ 0 < a.npad := by
  unfold rowsAcf; omega

/-- The frequencies that are written are those below the highest one. -/
theorem rows_ft (a : Args) : rowsFt a = a.mlag + a.npad := by
  unfold rowsFt; omega

end Verif.Acf
