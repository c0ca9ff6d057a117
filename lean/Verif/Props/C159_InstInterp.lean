import Verif.Phys.InstInterp
import Verif.Props.C35_Contract
import Verif.Props.C157_InstRate

/-!
# C159: interpolating an instanton

With a multiple of the number of beads the new path goes through the old beads, in each coordinate and each element
of the Hessian; the mean over the ring is kept, and with the same number of beads nothing changes.  But the new half
is not the half of the new ring: the turning point lies between the first and the last bead of the ring, not between
the same beads of the new ring.
-/

namespace Verif.InstInterp

open Finset Real Verif.Nm Verif.Contract Verif.InstPost

theorem newRing_eq {n n' : ℕ} (h : n < n') (q : ℕ → ℝ) (a : Fin (2 * n')) :
    newRing n n' q a = ∑ i, apply (mkNm (2 * n)) (ring n q) i * mkNm (2 * n') (selF (show 2 * n < 2 * n' by omega) i) a * √((2 * n' : ℕ) / (2 * n : ℕ)) := by
  have hne : ¬ 2 * n = 2 * n' := by omega
  rcases Nat.eq_zero_or_pos n with rfl | hn
  · unfold newRing b1tob2
    rw [dif_neg hne]
    simp [apply]
  have hN : (0 : ℝ) < (2 * n : ℕ) := by exact_mod_cast (by omega : 0 < 2 * n)
  have hN' : (0 : ℝ) < (2 * n' : ℕ) := by exact_mod_cast (by omega : 0 < 2 * n')
  unfold newRing b1tob2
  rw [dif_neg hne, if_neg (List.not_mem_nil)]
  unfold apply fwdMat mkRs
  have e : √(((2 * n : ℕ) : ℝ) / (2 * n' : ℕ)) * (((2 * n' : ℕ) : ℝ) / (2 * n : ℕ)) = √(((2 * n' : ℕ) : ℝ) / (2 * n : ℕ)) := by
    rw [Real.sqrt_div hN.le, Real.sqrt_div hN'.le]
    have h1 := Real.mul_self_sqrt hN.le
    have h2 := Real.mul_self_sqrt hN'.le
    have p1 := Real.sqrt_pos.mpr hN
    have p2 := Real.sqrt_pos.mpr hN'
    generalize √((2 * n : ℕ) : ℝ) = s at *
    generalize √((2 * n' : ℕ) : ℝ) = t at *
    rw [← h1, ← h2]; field_simp
  have : ∀ b : Fin (2 * n), (if 2 * n = 2 * n' then (if (a : ℕ) = b then (1 : ℝ) else 0) else if 2 * n' < 2 * n then rsDown mkNm (2 * n) (2 * n') a b
      else rsDown mkNm (2 * n') (2 * n) b a * (((2 * n' : ℕ) : ℝ) / (2 * n : ℕ))) * ring n q b
      = ∑ i, mkNm (2 * n) i b * ring n q b * mkNm (2 * n') (selF (show 2 * n < 2 * n' by omega) i) a * √((2 * n' : ℕ) / (2 * n : ℕ)) := by
    intro b
    rw [if_neg hne, if_neg (by omega), rsDown_eq mkNm (show 2 * n < 2 * n' by omega), mul_assoc _ (√_), e, sum_mul, sum_mul]
    exact sum_congr rfl fun i _ => by ring
  rw [sum_congr rfl fun b _ => this b, sum_comm]
  refine sum_congr rfl fun i _ => ?_
  rw [sum_mul, sum_mul]

theorem entry_match {N N' : ℕ} (h : N < N') (hN : 0 < N) (i a b : ℕ) (hi : i < N) (hne : ¬ (N % 2 = 0 ∧ i = N / 2)) (he : a * N = b * N')
    (he' : N' % 2 = 0) (hev : N % 2 = 0) : nmEntry N' (sel N' N i) a = nmEntry N i b := by
  have hn0 : (N : ℝ) ≠ 0 := by exact_mod_cast hN.ne'
  have hn0' : (N' : ℝ) ≠ 0 := by exact_mod_cast (by omega : N' ≠ 0)
  have hr : (a : ℝ) * N = b * N' := by exact_mod_cast he
  have hi2 : i ≠ N / 2 := fun x => hne ⟨hev, x⟩
  unfold nmEntry sel
  by_cases h0 : i = 0
  · subst h0
    simp only [Nat.zero_le, if_true]
    rw [if_neg (by omega), if_neg (by omega)]
  · by_cases hl : i ≤ N / 2
    · have c1 : ¬ (N' % 2 = 0 ∧ i = N' / 2) := by omega
      rw [if_pos hl, if_neg c1, if_neg hne, if_neg h0, if_neg h0, if_pos (show i < N' / 2 + 1 by omega), if_pos (show i < N / 2 + 1 by omega)]
      congr 2
      rw [div_eq_div_iff hn0' hn0]
      linear_combination 2 * π * i * hr
    · have c1 : ¬ (N' % 2 = 0 ∧ N' - N + i = N' / 2) := by omega
      have c2 : ¬ N' - N + i = 0 := by omega
      rw [if_neg hl, if_neg c1, if_neg hne, if_neg c2, if_neg h0, if_neg (show ¬ N' - N + i < N' / 2 + 1 by omega), if_neg (show ¬ i < N / 2 + 1 by omega)]
      congr 1
      have hc : ((N' - N + i : ℕ) : ℝ) = N' - N + i := by rw [Nat.cast_add, Nat.cast_sub h.le]
      have : 2 * π * a * ((N' - N + i : ℕ) : ℝ) / N' = 2 * π * b * i / N + (a : ℤ) * (2 * π) - (b : ℤ) * (2 * π) := by
        rw [hc]; push_cast
        have ha : (a : ℝ) = b * N' / N := by rw [eq_div_iff hn0]; exact hr
        rw [ha]; field_simp; ring
      rw [this, Real.sin_sub_int_mul_two_pi, Real.sin_add_int_mul_two_pi]

/-- The stiffest mode of a path that returns the way it came is zero. -/
theorem stiffest_zero (n : ℕ) (q : ℕ → ℝ) (i : Fin (2 * n)) (hi : (i : ℕ) = n) : apply (mkNm (2 * n)) (ring n q) i = 0 := by
  have e : ∀ j : Fin (2 * n), mkNm (2 * n) i (Fin.rev j) * ring n q (Fin.rev j) = -(mkNm (2 * n) i j * ring n q j) := by
    intro j
    have hr : ring n q (Fin.rev j) = ring n q j := by
      unfold ring
      rw [Fin.val_rev, show 2 * n - ((j : ℕ) + 1) = 2 * n - 1 - j by omega]
      exact double_symm n q j j.2
    have hm : mkNm (2 * n) i (Fin.rev j) = -mkNm (2 * n) i j := by
      unfold mkNm nmEntry
      have hc : 2 * n % 2 = 0 ∧ (i : ℕ) = 2 * n / 2 := ⟨by omega, by omega⟩
      rw [if_pos hc, if_pos hc, Fin.val_rev]
      have := j.2
      by_cases hj : (j : ℕ) % 2 = 0
      · rw [if_pos hj, if_neg (by omega)]; ring
      · rw [if_neg hj, if_pos (by omega)]; ring
    rw [hr, hm]; ring
  have hs : apply (mkNm (2 * n)) (ring n q) i = -apply (mkNm (2 * n)) (ring n q) i := by
    unfold apply
    rw [← sum_neg_distrib, ← sum_congr rfl fun j _ => e j]
    exact (Equiv.sum_comp Fin.revPerm fun j => mkNm (2 * n) i j * ring n q j).symm
  linarith

/-- Through the old beads: a new bead at the same place along the ring as an old one is at its position. -/
theorem through_old_beads {n n' : ℕ} (hn : 0 < n) (h : n < n') (q : ℕ → ℝ) (a : Fin (2 * n')) (b : Fin (2 * n)) (he : (a : ℕ) * n = b * n') :
    newRing n n' q a = ring n q b := by
  have hN : (0 : ℝ) < (2 * n : ℕ) := by exact_mod_cast (by omega : 0 < 2 * n)
  have hN' : (0 : ℝ) < (2 * n' : ℕ) := by exact_mod_cast (by omega : 0 < 2 * n')
  rw [newRing_eq h]
  have e : ∀ i : Fin (2 * n), apply (mkNm (2 * n)) (ring n q) i * mkNm (2 * n') (selF (show 2 * n < 2 * n' by omega) i) a * √((2 * n' : ℕ) / (2 * n : ℕ))
      = apply (mkNm (2 * n)) (ring n q) i * mkNm (2 * n) i b := by
    intro i
    by_cases hi : (i : ℕ) = n
    · rw [stiffest_zero n q i hi]; ring
    · have := entry_match (show 2 * n < 2 * n' by omega) (by omega) i a b i.2 (by omega) (by nlinarith) (by omega) (by omega)
      rw [mul_assoc]
      congr 1
      unfold mkNm selF
      dsimp only
      rw [this, Real.sqrt_div hN'.le]
      have p1 := Real.sqrt_pos.mpr hN
      have p2 := Real.sqrt_pos.mpr hN'
      field_simp
  rw [sum_congr rfl fun i _ => e i]
  unfold apply
  simp only [sum_mul]
  rw [sum_comm]
  have hc := modes_closed.cols (n := 2 * n)
  rw [sum_eq_single b]
  · have : ∀ i : Fin (2 * n), mkNm (2 * n) i b * ring n q b * mkNm (2 * n) i b = (mkNm (2 * n) i b * mkNm (2 * n) i b) * ring n q b := fun i => by ring
    rw [sum_congr rfl fun i _ => this i, ← sum_mul, hc b b, if_pos rfl, one_mul]
  · intro j _ hj
    have : ∀ i : Fin (2 * n), mkNm (2 * n) i j * ring n q j * mkNm (2 * n) i b = (mkNm (2 * n) i j * mkNm (2 * n) i b) * ring n q j := fun i => by ring
    rw [sum_congr rfl fun i _ => this i, ← sum_mul, hc j b, if_neg hj, zero_mul]
  · intro hh; exact absurd (mem_univ _) hh

/-- With `m` times the number of beads, every `m`-th bead of the new half is a bead of the old one. -/
theorem refined {n m : ℕ} (hn : 0 < n) (hm : 1 < m) (q : ℕ → ℝ) (b : ℕ) (hb : b < n) : newHalf n (m * n) q (m * b) = q b := by
  have h1 : n < m * n := by nlinarith
  have h2 : m * b < 2 * (m * n) := by nlinarith
  unfold newHalf
  rw [dif_pos h2, through_old_beads hn h1 q ⟨m * b, h2⟩ ⟨b, by omega⟩ (by dsimp only; ring)]
  unfold ring doubleQ
  rw [if_pos hb]

/-- With the same number of beads nothing changes. -/
theorem unchanged (n : ℕ) (q : ℕ → ℝ) (b : ℕ) (hb : b < n) : newHalf n n q b = q b := by
  unfold newHalf newRing b1tob2
  rw [dif_pos (by omega), dif_pos rfl]
  unfold ring doubleQ
  exact if_pos hb

/-- The mean over the ring is kept, for all numbers of beads. -/
theorem mean_kept {n n' : ℕ} (hn : 0 < n) (hn' : 0 < n') (q : ℕ → ℝ) :
    (∑ a, newRing n n' q a) / (2 * n' : ℕ) = (∑ b, ring n q b) / (2 * n : ℕ) := by
  exact centroid_kept (by omega) (by omega) [] (fun b (_ : Fin 1) => ring n q b) 0

/-! ## The Hessian -/

/-- The column of coordinate `j` of bead `a`: the new Hessian is interpolated element by element, as the positions are. -/
theorem hessian_elements (n n' size0 : ℕ) (h : ℕ → ℕ → ℝ) (i j a : ℕ) (hj : j < size0) (ha : a < n') :
    newHess n n' size0 h i (j + size0 * a) = newHalf n n' (fun k => h i (j + size0 * k)) a := by
  have hlt : j + size0 * a < size0 * (2 * n') := by nlinarith
  unfold newHess
  rw [Verif.InstPost.sum_list_range, sum_eq_single j]
  · have e : j + size0 * a - j = size0 * a := by omega
    rw [e, if_pos ⟨by omega, Nat.mul_mod_right _ _, hlt⟩, Nat.mul_div_cancel_left _ (by omega)]
  · intro k hk hkj
    have hk' := mem_range.mp hk
    rw [if_neg]
    rintro ⟨h1, h2, -⟩
    obtain ⟨t, ht⟩ := Nat.dvd_of_mod_eq_zero h2
    have : j + size0 * a = k + size0 * t := by omega
    have h3 := congrArg (· % size0) this
    simp only [Nat.add_mul_mod_self_left, Nat.mod_eq_of_lt hj, Nat.mod_eq_of_lt hk'] at h3
    exact hkj h3.symm
  · intro hh; exact absurd (mem_range.mpr hj) hh

/-- The Hessians of the old beads are among the new ones. -/
theorem hessian_refined {n m size0 : ℕ} (hn : 0 < n) (hm : 1 < m) (h : ℕ → ℕ → ℝ) (i j b : ℕ) (hj : j < size0) (hb : b < n) :
    newHess n (m * n) size0 h i (j + size0 * (m * b)) = h i (j + size0 * b) := by
  rw [hessian_elements n (m * n) size0 h i j (m * b) hj (by nlinarith), refined hn hm _ b hb]

/-- The Hessians of the new beads are symmetric if those of the old beads are. -/
theorem hessian_symmetric (n n' size0 : ℕ) (h : ℕ → ℕ → ℝ) (hs : ∀ i j k, i < size0 → j < size0 → h i (j + size0 * k) = h j (i + size0 * k))
    (i j a : ℕ) (hi : i < size0) (hj : j < size0) (ha : a < n') : newHess n n' size0 h i (j + size0 * a) = newHess n n' size0 h j (i + size0 * a) := by
  rw [hessian_elements n n' size0 h i j a hj ha, hessian_elements n n' size0 h j i a hi ha]
  congr 1
  exact funext fun k => hs i j k hi hj

/-! ## The new half is not the half of the new ring -/

/-- Two beads expanded to four: the ring rebuilt from the new half, as the calculation does, is not the ring that was
interpolated; the last bead of the new ring is the turning point, and it is not part of the new half. -/
theorem half_not_mirrored : ∃ (q : ℕ → ℝ) (a : Fin (2 * 4)), ring 4 (newHalf 2 4 q) a ≠ newRing 2 4 q a := by
  refine ⟨fun k => if k = 0 then 1 else -1, 7, ?_⟩
  have h0 : ring 4 (newHalf 2 4 fun k => if k = 0 then 1 else -1) 7 = 1 := by
    have : ring 4 (newHalf 2 4 fun k => if k = 0 then (1 : ℝ) else -1) 7 = newHalf 2 (2 * 2) (fun k => if k = 0 then (1 : ℝ) else -1) (2 * 0) := rfl
    rw [this, refined (by norm_num) (by norm_num) _ 0 (by norm_num)]; simp
  have c : ∀ (j : ℕ) (y : ℝ), (j : ℝ) * (π / 2) = y → cos (2 * π * j * (1 : ℕ) / (2 * 2 : ℕ)) = cos y := fun j y h => by rw [← h]; congr 1; push_cast; ring
  have s : ∀ (j : ℕ) (y : ℝ), (j : ℝ) * (3 * π / 2) = y → sin (2 * π * j * (3 : ℕ) / (2 * 2 : ℕ)) = sin y := fun j y h => by rw [← h]; congr 1; push_cast; ring
  have s4 : √((2 * 2 : ℕ) : ℝ) = 2 := by rw [show ((2 * 2 : ℕ) : ℝ) = 2 ^ 2 by norm_num]; exact Real.sqrt_sq (by norm_num)
  have m1 : apply (mkNm (2 * 2)) (ring 2 fun k => if k = 0 then 1 else -1) 1 = √2 := by
    unfold apply
    have e : ∀ j : Fin (2 * 2), mkNm (2 * 2) 1 j = √2 * cos (2 * π * (j : ℕ) * (1 : ℕ) / (2 * 2 : ℕ)) / 2 := fun j => by
      unfold mkNm nmEntry
      rw [if_neg (by decide), if_neg (by decide), if_pos (by decide), s4]; rfl
    rw [show (∑ j : Fin (2 * 2), mkNm (2 * 2) 1 j * ring 2 (fun k => if k = 0 then 1 else -1) j)
      = mkNm (2 * 2) 1 0 * ring 2 (fun k => if k = 0 then 1 else -1) 0 + mkNm (2 * 2) 1 1 * ring 2 (fun k => if k = 0 then 1 else -1) 1
        + mkNm (2 * 2) 1 2 * ring 2 (fun k => if k = 0 then 1 else -1) 2 + mkNm (2 * 2) 1 3 * ring 2 (fun k => if k = 0 then 1 else -1) 3 from Fin.sum_univ_four _]
    rw [e, e, e, e]
    have r0 : ring 2 (fun k => if k = 0 then 1 else -1) 0 = 1 := by unfold ring doubleQ; simp
    have r1 : ring 2 (fun k => if k = 0 then 1 else -1) 1 = -1 := by unfold ring doubleQ; simp
    have r2 : ring 2 (fun k => if k = 0 then 1 else -1) 2 = -1 := by unfold ring doubleQ; simp
    have r3 : ring 2 (fun k => if k = 0 then 1 else -1) 3 = 1 := by unfold ring doubleQ; simp
    rw [r0, r1, r2, r3]
    have c0 := c 0 0 (by simp)
    have c1 := c 1 (π / 2) (by push_cast; ring)
    have c2 := c 2 π (by push_cast; ring)
    have c3 := c 3 (π / 2 + π) (by push_cast; ring)
    rw [cos_zero] at c0
    rw [cos_pi_div_two] at c1
    rw [cos_pi] at c2
    rw [cos_add_pi, cos_pi_div_two] at c3
    show √2 * cos (2 * π * (0 : ℕ) * (1 : ℕ) / (2 * 2 : ℕ)) / 2 * 1 + √2 * cos (2 * π * (1 : ℕ) * (1 : ℕ) / (2 * 2 : ℕ)) / 2 * -1
      + √2 * cos (2 * π * (2 : ℕ) * (1 : ℕ) / (2 * 2 : ℕ)) / 2 * -1 + √2 * cos (2 * π * (3 : ℕ) * (1 : ℕ) / (2 * 2 : ℕ)) / 2 * 1 = √2
    rw [c0, c1, c2, c3]; ring
  have m3 : apply (mkNm (2 * 2)) (ring 2 fun k => if k = 0 then 1 else -1) 3 = √2 := by
    unfold apply
    have e : ∀ j : Fin (2 * 2), mkNm (2 * 2) 3 j = √2 * sin (2 * π * (j : ℕ) * (3 : ℕ) / (2 * 2 : ℕ)) / 2 := fun j => by
      unfold mkNm nmEntry
      rw [if_neg (by decide), if_neg (by decide), if_neg (by decide), s4]; rfl
    rw [show (∑ j : Fin (2 * 2), mkNm (2 * 2) 3 j * ring 2 (fun k => if k = 0 then 1 else -1) j)
      = mkNm (2 * 2) 3 0 * ring 2 (fun k => if k = 0 then 1 else -1) 0 + mkNm (2 * 2) 3 1 * ring 2 (fun k => if k = 0 then 1 else -1) 1
        + mkNm (2 * 2) 3 2 * ring 2 (fun k => if k = 0 then 1 else -1) 2 + mkNm (2 * 2) 3 3 * ring 2 (fun k => if k = 0 then 1 else -1) 3 from Fin.sum_univ_four _]
    rw [e, e, e, e]
    have r0 : ring 2 (fun k => if k = 0 then 1 else -1) 0 = 1 := by unfold ring doubleQ; simp
    have r1 : ring 2 (fun k => if k = 0 then 1 else -1) 1 = -1 := by unfold ring doubleQ; simp
    have r2 : ring 2 (fun k => if k = 0 then 1 else -1) 2 = -1 := by unfold ring doubleQ; simp
    have r3 : ring 2 (fun k => if k = 0 then 1 else -1) 3 = 1 := by unfold ring doubleQ; simp
    rw [r0, r1, r2, r3]
    have c0 := s 0 0 (by simp)
    have c1 := s 1 (π / 2 + π) (by push_cast; ring)
    have c2 := s 2 (π + 2 * π) (by push_cast; ring)
    have c3 := s 3 (π / 2 + 2 * π + 2 * π) (by push_cast; ring)
    rw [sin_zero] at c0
    rw [sin_add_pi, sin_pi_div_two] at c1
    rw [sin_add_two_pi, sin_pi] at c2
    rw [sin_add_two_pi, sin_add_two_pi, sin_pi_div_two] at c3
    show √2 * sin (2 * π * (0 : ℕ) * (3 : ℕ) / (2 * 2 : ℕ)) / 2 * 1 + √2 * sin (2 * π * (1 : ℕ) * (3 : ℕ) / (2 * 2 : ℕ)) / 2 * -1
      + √2 * sin (2 * π * (2 : ℕ) * (3 : ℕ) / (2 * 2 : ℕ)) / 2 * -1 + √2 * sin (2 * π * (3 : ℕ) * (3 : ℕ) / (2 * 2 : ℕ)) / 2 * 1 = √2
    rw [c0, c1, c2, c3]; ring
  have m0 : apply (mkNm (2 * 2)) (ring 2 fun k => if k = 0 then 1 else -1) 0 = 0 := by
    unfold apply
    have e : ∀ j : Fin (2 * 2), mkNm (2 * 2) 0 j = 1 / 2 := fun j => by
      unfold mkNm nmEntry
      rw [if_neg (by decide), if_pos (by decide), s4]
    rw [sum_congr rfl fun j _ => by rw [e j], show (∑ j : Fin (2 * 2), (1 / 2 : ℝ) * ring 2 (fun k => if k = 0 then 1 else -1) j)
      = 1 / 2 * ring 2 (fun k => if k = 0 then 1 else -1) 0 + 1 / 2 * ring 2 (fun k => if k = 0 then 1 else -1) 1
        + 1 / 2 * ring 2 (fun k => if k = 0 then 1 else -1) 2 + 1 / 2 * ring 2 (fun k => if k = 0 then 1 else -1) 3 from Fin.sum_univ_four _]
    unfold ring doubleQ
    simp
  have m2 := stiffest_zero 2 (fun k => if k = 0 then 1 else -1) 2 rfl
  rw [h0, newRing_eq (by norm_num)]
  intro hh
  have h4 := hh.trans (Fin.sum_univ_four (fun i : Fin (2 * 2) => apply (mkNm (2 * 2)) (ring 2 fun k => if k = 0 then 1 else -1) i
    * mkNm (2 * 4) (selF (by norm_num) i) 7 * √((2 * 4 : ℕ) / (2 * 2 : ℕ))))
  have h8 : (0 : ℝ) < √((2 * 4 : ℕ) : ℝ) := Real.sqrt_pos.mpr (by norm_num)
  have hs : √(((2 * 4 : ℕ) : ℝ) / (2 * 2 : ℕ)) = √((2 * 4 : ℕ) : ℝ) / 2 := by rw [Real.sqrt_div (by positivity), s4]
  have t1 : mkNm (2 * 4) (selF (by norm_num) (1 : Fin (2 * 2))) 7 = √2 * (√2 / 2) / √((2 * 4 : ℕ) : ℝ) := by
    have : cos (2 * π * (7 : ℕ) * (1 : ℕ) / (2 * 4 : ℕ)) = √2 / 2 := by
      rw [← cos_pi_div_four, show 2 * π * (7 : ℕ) * (1 : ℕ) / (2 * 4 : ℕ) = -(π / 4) + 2 * π by push_cast; ring, cos_add_two_pi, cos_neg]
    rw [← this]
    unfold mkNm nmEntry
    rw [if_neg (by decide), if_neg (by decide), if_pos (by decide)]; rfl
  have t3 : mkNm (2 * 4) (selF (by norm_num) (3 : Fin (2 * 2))) 7 = √2 * (√2 / 2) / √((2 * 4 : ℕ) : ℝ) := by
    have : sin (2 * π * (7 : ℕ) * (7 : ℕ) / (2 * 4 : ℕ)) = √2 / 2 := by
      rw [← sin_pi_div_four, show 2 * π * (7 : ℕ) * (7 : ℕ) / (2 * 4 : ℕ) = π / 4 + (6 : ℕ) * (2 * π) by push_cast; ring, sin_add_nat_mul_two_pi]
    rw [← this]
    unfold mkNm nmEntry
    rw [if_neg (by decide), if_neg (by decide), if_neg (by decide)]; rfl
  rw [m0, m1, m2, m3, t1, t3, hs] at h4
  have h2 : √(2 : ℝ) * √2 = 2 := Real.mul_self_sqrt (by norm_num)
  have h5 : (1 : ℝ) = √2 := by
    generalize √((2 * 4 : ℕ) : ℝ) = x at h4 h8
    generalize √(2 : ℝ) = y at h2 h4 ⊢
    rw [h4]
    have : y * (y * (y / 2) / x) * (x / 2) = y * y * y / 4 := by field_simp; ring
    rw [this, h2]; ring
  rw [← h5] at h2
  norm_num at h2

end Verif.InstInterp
